import Verif.Props.Files

/-!
# The files of a parameter variation test
-/

set_option linter.unusedSectionVars false

namespace Verif.Files

/-- The number as it is written in the name of a file. -/
abbrev printed (i : ℕ) : Path := (toString i).toList

theorem printed_eq (i : ℕ) : printed i = Nat.toDigits 10 i := by
  simp [printed, Nat.repr]

theorem printed_digit (i : ℕ) : ∀ c ∈ printed i, c.isDigit := by
  rw [printed_eq]
  exact fun c hc => Nat.isDigit_of_mem_toDigits (by decide) (by decide) hc

theorem printed_not (i : ℕ) {c : Char} (h : c.isDigit = false) : c ∉ printed i := by
  intro hc
  rw [printed_digit i c hc] at h
  exact absurd h (by decide)

theorem printed_ne (i : ℕ) : printed i ≠ [] := by
  rw [printed_eq]
  exact Nat.toDigits_ne_nil

theorem printed_injective {i j : ℕ} (h : printed i = printed j) : i = j := by
  have h' : toString i = toString j := String.toList_inj.1 h
  have hi := PyNumber.C130_printed (i : ℤ)
  have hj := PyNumber.C130_printed (j : ℤ)
  have e : toString (i : ℤ) = toString (j : ℤ) := h'
  rw [e, hj] at hi
  exact_mod_cast (Option.some.inj hi).symm

theorem figureName_png (q : Path) {s : Path} (hs : Plain s) :
    figureName (q ++ s ++ ".png".toList) = q ++ s ++ ".png".toList := by
  unfold figureName
  rw [show ".png".toList = '.' :: "png".toList by decide, splitext_suffix q hs (by decide) (by decide)]
  rw [if_neg]
  simp

theorem average_name (q s : Path) (hs : Plain s) :
    figureName (inserted (q ++ "_average.png".toList) s) = q ++ "_average".toList ++ s ++ ".png".toList := by
  have h : splitext (q ++ "_average.png".toList) = (q ++ "_average".toList, ".png".toList) := by
    have := splitext_suffix q (s := "_average".toList) (e := "png".toList) ⟨by decide, by decide, by decide⟩
      (by decide) (by decide)
    rw [show ('.' :: "png".toList) = ".png".toList by decide, List.append_assoc] at this
    exact this
  rw [figureName_inserted _ hs, h]
  unfold shown
  rw [h]
  dsimp only
  rw [if_neg (by decide)]

/-- The kinds of files of a series. -/
inductive Kind where
  | error (i : ℕ)
  | animation (i : ℕ)
  | height
  | discharge

/-- The names documented for the files of a series. -/
def name (directory : Path) (s : Series) (stem : Path) : Kind → Path
  | .error i => directory ++ s.directory ++ "/error_".toList ++ printed i ++ ".png".toList
  | .animation i => directory ++ s.directory ++ "/animation_".toList ++ printed i ++ ".mp4".toList
  | .height => directory ++ stem ++ ("_average_".toList ++ ['h']) ++ ".png".toList
  | .discharge => directory ++ stem ++ ("_average_".toList ++ ['q']) ++ ".png".toList

theorem mem_files {directory : Path} {animation : Bool} {indices : List ℕ} {s : Series} {stem : Path}
    (hs : s.average = stem ++ "_average.png".toList) {f : Path} :
    f ∈ seriesFiles (directory ++ s.directory) indices animation ++ averageFiles (directory ++ s.average) ↔
      (∃ i ∈ indices, f = name directory s stem (.error i)) ∨
      (animation ∧ ∃ i ∈ indices, f = name directory s stem (.animation i)) ∨
      f = name directory s stem .height ∨ f = name directory s stem .discharge := by
  have he : ∀ i, figureName (directory ++ s.directory ++ "/error_".toList ++ printed i ++ ".png".toList) =
      name directory s stem (.error i) := fun i =>
    figureName_png _ ⟨printed_ne i, printed_not i (by decide), printed_not i (by decide)⟩
  have hh : figureName (inserted (directory ++ s.average) "_h".toList) = name directory s stem .height := by
    rw [hs, ← List.append_assoc, average_name _ _ plain_h]
    simp [name]
  have hq : figureName (inserted (directory ++ s.average) "_q".toList) = name directory s stem .discharge := by
    rw [hs, ← List.append_assoc, average_name _ _ plain_q]
    simp [name]
  unfold averageFiles seriesFiles
  rw [hh, hq, List.mem_append, List.mem_flatMap]
  simp only [List.mem_cons, List.not_mem_nil, or_false]
  constructor
  · rintro (⟨i, hi, h | h⟩ | h)
    · exact Or.inl ⟨i, hi, h.trans (he i)⟩
    · cases animation with
      | true =>
        rw [if_pos rfl, List.mem_singleton] at h
        exact Or.inr (Or.inl ⟨rfl, i, hi, h⟩)
      | false => simp at h
    · exact Or.inr (Or.inr h)
  · rintro (⟨i, hi, h⟩ | ⟨ha, i, hi, h⟩ | h)
    · exact Or.inl ⟨i, hi, Or.inl (h.trans (he i).symm)⟩
    · exact Or.inl ⟨i, hi, Or.inr (by rw [if_pos ha, List.mem_singleton]; exact h)⟩
    · exact Or.inr h

theorem error_average {a b : Path} {i : ℕ} {c : Char} (hc : c.isDigit = false)
    (h : a ++ "/error_".toList ++ printed i ++ ".png".toList = b ++ ("_average_".toList ++ [c]) ++ ".png".toList)
    (hc' : c ≠ '_') : False := by
  have h1 := List.append_cancel_right h
  have h2 : (a ++ "/error".toList) ++ '_' :: printed i = (b ++ "_average".toList) ++ '_' :: [c] := by
    simpa using h1
  have h3 := (split_last h2 (printed_not i (by decide)) (by simpa using hc'.symm)).2
  have := printed_digit i c (by rw [h3]; simp)
  rw [hc] at this
  exact absurd this (by decide)

/-- The names of the files of two series determine kind and number of the file; files on benchmarks determine the
directory of the series, averages the path given for them. -/
theorem name_injective {directory : Path} {s s' : Series} {stem stem' : Path} {k k' : Kind}
    (h : name directory s stem k = name directory s' stem' k') :
    k = k' ∧ match k with
      | .error _ => s.directory = s'.directory
      | .animation _ => s.directory = s'.directory
      | _ => stem = stem' := by
  have hlast : ∀ {a b : Path}, a ++ ".png".toList = b ++ ".mp4".toList → False := fun h =>
    absurd (List.append_inj' h (by decide +kernel)).2 (by decide +kernel)
  have havg : ∀ {a b : Path}, a ++ ("_average_".toList ++ ['h']) ++ ".png".toList =
      b ++ ("_average_".toList ++ ['q']) ++ ".png".toList → False := fun h =>
    absurd (List.append_inj' (List.append_cancel_right h) (by decide +kernel)).2 (by decide +kernel)
  cases k with
  | error i =>
    cases k' with
    | error j =>
      have h1 := List.append_cancel_right h
      have h2 : (directory ++ s.directory ++ "/error".toList) ++ '_' :: printed i =
          (directory ++ s'.directory ++ "/error".toList) ++ '_' :: printed j := by simpa using h1
      obtain ⟨h3, h4⟩ := split_last h2 (printed_not i (by decide)) (printed_not j (by decide))
      exact ⟨congrArg _ (printed_injective h4), List.append_cancel_left (List.append_cancel_right h3)⟩
    | animation j => exact (hlast h).elim
    | height => exact (error_average (by decide) h (by decide)).elim
    | discharge => exact (error_average (by decide) h (by decide)).elim
  | animation i =>
    cases k' with
    | error j => exact (hlast h.symm).elim
    | animation j =>
      have h1 := List.append_cancel_right h
      have h2 : (directory ++ s.directory ++ "/animation".toList) ++ '_' :: printed i =
          (directory ++ s'.directory ++ "/animation".toList) ++ '_' :: printed j := by simpa using h1
      obtain ⟨h3, h4⟩ := split_last h2 (printed_not i (by decide)) (printed_not j (by decide))
      exact ⟨congrArg _ (printed_injective h4), List.append_cancel_left (List.append_cancel_right h3)⟩
    | height => exact (hlast h.symm).elim
    | discharge => exact (hlast h.symm).elim
  | height =>
    cases k' with
    | error j => exact (error_average (by decide) h.symm (by decide)).elim
    | animation j => exact (hlast h).elim
    | height => exact ⟨rfl, List.append_cancel_left (List.append_cancel_right (List.append_cancel_right h))⟩
    | discharge => exact (havg h).elim
  | discharge =>
    cases k' with
    | error j => exact (error_average (by decide) h.symm (by decide)).elim
    | animation j => exact (hlast h).elim
    | height => exact (havg h.symm).elim
    | discharge => exact ⟨rfl, List.append_cancel_left (List.append_cancel_right (List.append_cancel_right h))⟩

/-- The average of a series is saved in a file ending with `_average.png`. -/
def Averaged (s : Series) : Prop := ∃ stem, s.average = stem ++ "_average.png".toList

theorem testFiles_nodup (directory : Path) (animation : Bool) (indices : Series → List ℕ) (l : List Series)
    (hi : ∀ s ∈ l, (indices s).Nodup) (ha : ∀ s ∈ l, Averaged s) (hd : (l.map Series.directory).Nodup)
    (hm : (l.map Series.average).Nodup) : (testFiles directory animation indices l).Nodup := by
  unfold testFiles
  rw [List.nodup_flatMap]
  constructor
  · intro s hs
    obtain ⟨stem, hstem⟩ := ha s hs
    rw [List.nodup_append]
    have hh : figureName (inserted (directory ++ s.average) "_h".toList) = name directory s stem .height := by
      rw [hstem, ← List.append_assoc, average_name _ _ plain_h]
      simp [name]
    have hq : figureName (inserted (directory ++ s.average) "_q".toList) = name directory s stem .discharge := by
      rw [hstem, ← List.append_assoc, average_name _ _ plain_q]
      simp [name]
    have he : ∀ i, figureName (directory ++ s.directory ++ "/error_".toList ++ printed i ++ ".png".toList) =
        name directory s stem (.error i) := fun i =>
      figureName_png _ ⟨printed_ne i, printed_not i (by decide), printed_not i (by decide)⟩
    have hmem : ∀ f ∈ seriesFiles (directory ++ s.directory) (indices s) animation,
        ∃ i, f = name directory s stem (.error i) ∨ f = name directory s stem (.animation i) := by
      intro f hf
      obtain ⟨i, _, hf⟩ := List.mem_flatMap.1 hf
      rcases List.mem_cons.1 hf with h | h
      · exact ⟨i, Or.inl (h.trans (he i))⟩
      · cases animation with
        | true => exact ⟨i, Or.inr (List.mem_singleton.1 h)⟩
        | false => simp at h
    refine ⟨?_, ?_, ?_⟩
    · unfold seriesFiles
      rw [List.nodup_flatMap]
      constructor
      · intro i _
        rw [he i]
        cases animation with
        | true =>
          rw [if_pos rfl, List.nodup_cons]
          refine ⟨fun h => ?_, List.nodup_singleton _⟩
          have := (name_injective (stem' := stem) (k := .error i) (k' := .animation i) (List.mem_singleton.1 h)).1
          cases this
        | false => exact List.nodup_singleton _
      · refine (hi s hs).imp ?_
        intro i j hij f hf hf'
        apply hij
        have key : ∀ {m : ℕ}, f ∈ figureName (directory ++ s.directory ++ "/error_".toList ++ printed m ++ ".png".toList) ::
            (if animation then [directory ++ s.directory ++ "/animation_".toList ++ printed m ++ ".mp4".toList]
              else []) → f = name directory s stem (.error m) ∨ f = name directory s stem (.animation m) := by
          intro m hm
          rcases List.mem_cons.1 hm with h | h
          · exact Or.inl (h.trans (he m))
          · cases animation with
            | true => exact Or.inr (List.mem_singleton.1 h)
            | false => simp at h
        rcases key hf with h | h <;> rcases key hf' with h' | h' <;>
          have := (name_injective (h.symm.trans h')).1 <;> cases this <;> rfl
    · unfold averageFiles
      rw [hh, hq, List.nodup_cons]
      refine ⟨fun h => ?_, List.nodup_singleton _⟩
      have := (name_injective (List.mem_singleton.1 h)).1
      cases this
    · intro f hf g hg hfg
      subst hfg
      unfold averageFiles at hg
      rw [hh, hq, List.mem_cons, List.mem_singleton] at hg
      obtain ⟨i, h | h⟩ := hmem f hf <;> rcases hg with h' | h' <;>
        have := (name_injective (h.symm.trans h')).1 <;> cases this
  · have hpair : l.Pairwise fun s s' => s.directory ≠ s'.directory ∧ s.average ≠ s'.average :=
      List.Pairwise.and (List.pairwise_map.1 hd) (List.pairwise_map.1 hm)
    refine List.Pairwise.imp_of_mem ?_ hpair
    intro s s' hs hs' hne f hf hf'
    obtain ⟨stem, hstem⟩ := ha s hs
    obtain ⟨stem', hstem'⟩ := ha s' hs'
    rw [mem_files hstem] at hf
    rw [mem_files hstem'] at hf'
    have key : ∀ k k', f = name directory s stem k → f = name directory s' stem' k' → False := by
      intro k k' h h'
      have := name_injective (h.symm.trans h')
      obtain ⟨_, h3⟩ := this
      cases k with
      | error _ => exact hne.1 h3
      | animation _ => exact hne.1 h3
      | height => exact hne.2 (by rw [hstem, hstem', show stem = stem' from h3])
      | discharge => exact hne.2 (by rw [hstem, hstem', show stem = stem' from h3])
    rcases hf with ⟨i, _, h⟩ | ⟨_, i, _, h⟩ | h | h <;>
      rcases hf' with ⟨j, _, h'⟩ | ⟨_, j, _, h'⟩ | h' | h' <;> exact key _ _ h h'

/-! ### The test -/

theorem series_averaged (v : Variation) : ∀ s ∈ v.series, Averaged s := by
  intro s hs
  obtain ⟨x, _, rfl⟩ := List.mem_map.1 hs
  exact ⟨_, rfl⟩

/-- The series of all variations, in the order of the list of variations. -/
theorem all_directories : ((variations.flatMap Variation.series).map Series.directory).Nodup := by decide +kernel

theorem all_averages : ((variations.flatMap Variation.series).map Series.average).Nodup := by decide +kernel

theorem flatMap_nodup_of {A B : Type} {f : A → List B} {l l' : List A} (h : (l.flatMap f).Nodup)
    (hs : ∀ x ∈ l', x ∈ l) (hl : l'.Nodup) : (l'.flatMap f).Nodup := by
  rw [List.nodup_flatMap] at h ⊢
  refine ⟨fun x hx => h.1 x (hs x hx), ?_⟩
  refine List.Pairwise.imp_of_mem ?_ hl
  intro a b ha hb hab
  have : Std.Symm fun a b => a ≠ b → List.Disjoint (f a) (f b) := ⟨fun _ _ h hxy => (h hxy.symm).symm⟩
  have hp : l.Pairwise fun a b => a ≠ b → List.Disjoint (f a) (f b) := by
    refine List.Pairwise.imp ?_ h.2
    intro a b h _
    exact h
  exact List.Pairwise.forall_of_forall (R := fun a b => a ≠ b → List.Disjoint (f a) (f b))
    (fun x _ hx => absurd rfl hx) hp (hs a ha) (hs b hb) hab

/-- A parameter variation test with different variations writes no file twice, whichever benchmarks succeed in a
series, with and without animations, if the directory for reference errors is neither that of a variation nor that of a
value tested. -/
theorem C131_variations (directory : Path) (animation : Bool) (indices : Series → List ℕ)
    (hi : ∀ s, (indices s).Nodup) (refs : Option Path) (pre : Path) (vs : List Variation)
    (hv : ∀ v ∈ vs, v ∈ variations) (hn : vs.Nodup)
    (hr : ∀ r, refs = some r → ∀ v ∈ vs, r ≠ v.name ∧ ∀ x ∈ v.values, r ≠ v.name ++ '/' :: x) :
    (testFiles directory animation indices (testSeries refs pre vs)).Nodup := by
  have hall : ∀ s ∈ testSeries refs pre vs, Averaged s := by
    intro s hs
    rcases List.mem_append.1 hs with h | h
    · cases refs with
      | none => simp at h
      | some r =>
        by_cases h0 : r = []
        · simp [h0] at h
        · simp only [if_neg h0, List.mem_singleton] at h
          subst h
          exact ⟨_, rfl⟩
    · obtain ⟨v, _, hv⟩ := List.mem_flatMap.1 h
      exact series_averaged v s hv
  have hdirs : ((vs.flatMap Variation.series).map Series.directory).Nodup := by
    rw [List.map_flatMap]
    refine flatMap_nodup_of (l := variations) ?_ hv hn
    rw [← List.map_flatMap]
    exact all_directories
  have havgs : ((vs.flatMap Variation.series).map Series.average).Nodup := by
    rw [List.map_flatMap]
    refine flatMap_nodup_of (l := variations) ?_ hv hn
    rw [← List.map_flatMap]
    exact all_averages
  refine testFiles_nodup directory animation indices _ (fun s _ => hi s) hall ?_ ?_
  · unfold testSeries
    rw [List.map_append, List.nodup_append]
    refine ⟨?_, hdirs, ?_⟩
    · cases refs with
      | none => simp
      | some r => by_cases h0 : r = [] <;> simp [h0]
    · intro a ha b hb hab
      subst hab
      cases refs with
      | none => simp at ha
      | some r =>
        by_cases h0 : r = []
        · simp [h0] at ha
        · simp only [if_neg h0, List.map_cons, List.map_nil, List.mem_singleton] at ha
          obtain ⟨s, hs, hsd⟩ := List.mem_map.1 hb
          obtain ⟨v, hv', hs⟩ := List.mem_flatMap.1 hs
          obtain ⟨x, hx, rfl⟩ := List.mem_map.1 hs
          exact (hr r rfl v hv').2 x hx (by rw [show r = a from ha.symm]; exact hsd.symm)
  · unfold testSeries
    rw [List.map_append, List.nodup_append]
    refine ⟨?_, havgs, ?_⟩
    · cases refs with
      | none => simp
      | some r => by_cases h0 : r = [] <;> simp [h0]
    · intro a ha b hb hab
      subst hab
      cases refs with
      | none => simp at ha
      | some r =>
        by_cases h0 : r = []
        · simp [h0] at ha
        · simp only [if_neg h0, List.map_cons, List.map_nil, List.mem_singleton] at ha
          obtain ⟨s, hs, hsd⟩ := List.mem_map.1 hb
          obtain ⟨v, hv', hs⟩ := List.mem_flatMap.1 hs
          obtain ⟨x, hx, rfl⟩ := List.mem_map.1 hs
          rw [ha] at hsd
          have h1 : (v.name ++ '/' :: v.short ++ '_' :: x) ++ "_average.png".toList =
              (r ++ '/' :: (if pre = [] then "error".toList else pre)) ++ "_average.png".toList := hsd
          have h2 := List.append_cancel_right h1
          rw [List.append_assoc, List.cons_append] at h2
          have hplain : ∀ v ∈ variations, '/' ∉ v.name ∧ ∀ x ∈ v.values, '/' ∉ v.short ++ '_' :: x := by
            decide +kernel
          obtain ⟨hname, hrest⟩ := hplain v (hv v hv')
          have h3 : r = v.name := by
            rcases List.append_eq_append_iff.1 h2 with ⟨y, h4, h5⟩ | ⟨y, h4, h5⟩
            · cases y with
              | nil => simpa using h4
              | cons z y =>
                simp only [List.cons_append, List.cons.injEq] at h5
                exact absurd (by rw [h5.2]; simp) (hrest x hx)
            · cases y with
              | nil => simpa using h4.symm
              | cons z y =>
                simp only [List.cons_append, List.cons.injEq] at h5
                rw [← h5.1] at h4
                exact absurd (by rw [h4]; simp) hname
          exact (hr r rfl v hv').1 h3

/-- The directory given is put before the names without a separator: the files are in it if it ends with one.  A test
without reference errors whose directory is given without one puts nothing into it. -/
theorem C131_inside (directory : Path) (animation : Bool) (indices : Series → List ℕ) (refs : Option Path) (pre : Path)
    (vs : List Variation) (hv : ∀ v ∈ vs, v ∈ variations) (f : Path)
    (hf : f ∈ testFiles directory animation indices (testSeries refs pre vs)) :
    directory <+: f ∧ (refs = none → ¬ (directory ++ ['/']) <+: f) := by
  obtain ⟨s, hs, hf⟩ := List.mem_flatMap.1 hf
  have havg : Averaged s := by
    rcases List.mem_append.1 hs with h | h
    · cases refs with
      | none => simp at h
      | some r =>
        by_cases h0 : r = []
        · simp [h0] at h
        · simp only [if_neg h0, List.mem_singleton] at h
          subst h
          exact ⟨_, rfl⟩
    · obtain ⟨v, _, hv⟩ := List.mem_flatMap.1 h
      exact series_averaged v s hv
  obtain ⟨stem, hstem⟩ := havg
  rw [mem_files hstem] at hf
  have hform : ∃ r, f = directory ++ r ∧ (s.directory <+: r ∨ stem <+: r) := by
    rcases hf with ⟨i, _, h⟩ | ⟨_, i, _, h⟩ | h | h
    · exact ⟨s.directory ++ "/error_".toList ++ printed i ++ ".png".toList, by rw [h]; simp [name],
        Or.inl ⟨"/error_".toList ++ printed i ++ ".png".toList, by simp⟩⟩
    · exact ⟨s.directory ++ "/animation_".toList ++ printed i ++ ".mp4".toList, by rw [h]; simp [name],
        Or.inl ⟨"/animation_".toList ++ printed i ++ ".mp4".toList, by simp⟩⟩
    · exact ⟨stem ++ "_average_h.png".toList, by rw [h]; simp [name], Or.inr ⟨_, rfl⟩⟩
    · exact ⟨stem ++ "_average_q.png".toList, by rw [h]; simp [name], Or.inr ⟨_, rfl⟩⟩
  obtain ⟨r, rfl, hr⟩ := hform
  refine ⟨List.prefix_append _ _, ?_⟩
  rintro rfl hp
  have hp' : ['/'] <+: r := (List.prefix_append_right_inj directory).1 hp
  obtain ⟨v, hv', hs⟩ := List.mem_flatMap.1 (by simpa [testSeries] using hs)
  obtain ⟨x, hx, rfl⟩ := List.mem_map.1 hs
  have hstem' : stem = v.name ++ '/' :: v.short ++ '_' :: x := (List.append_cancel_right hstem).symm
  have hn : ∀ v ∈ variations, ∃ c t, v.name = c :: t ∧ c ≠ '/' := by
    intro v hv
    simp only [variations, List.mem_cons, List.not_mem_nil, or_false] at hv
    rcases hv with rfl | rfl | rfl <;> exact ⟨'h', _, rfl, by decide⟩
  obtain ⟨c, t, hc, hc'⟩ := hn v (hv v hv')
  have hvn : v.name <+: r := by
    rcases hr with h | h
    · exact (List.prefix_append _ _).trans h
    · rw [hstem', List.append_assoc] at h
      exact (List.prefix_append _ _).trans h
  obtain ⟨w, rfl⟩ := hvn
  rw [hc] at hp'
  obtain ⟨u, hu⟩ := hp'
  simp only [List.cons_append, List.nil_append, List.cons.injEq] at hu
  exact hc' hu.1.symm

example : testFiles "out/".toList false (fun _ => [0, 2]) (testSeries (some "references".toList) []
      [⟨"height_wave_number".toList, "kh".toList, ["10".toList, "15".toList]⟩]) =
    ["out/references/error_0.png".toList, "out/references/error_2.png".toList,
     "out/references/error_average_h.png".toList, "out/references/error_average_q.png".toList,
     "out/height_wave_number/10/error_0.png".toList, "out/height_wave_number/10/error_2.png".toList,
     "out/height_wave_number/kh_10_average_h.png".toList, "out/height_wave_number/kh_10_average_q.png".toList,
     "out/height_wave_number/15/error_0.png".toList, "out/height_wave_number/15/error_2.png".toList,
     "out/height_wave_number/kh_15_average_h.png".toList, "out/height_wave_number/kh_15_average_q.png".toList] := by
  decide +kernel

/-- The condition on the references is needed. -/
theorem C131_references :
    ¬ (testFiles "out/".toList false (fun _ => [0]) (testSeries (some "height_average/1.6".toList) []
      variations)).Nodup ∧
    ¬ (testFiles "out/".toList false (fun _ => [0]) (testSeries (some "height_average".toList) "H0_1.6".toList
      variations)).Nodup := by
  constructor <;> decide +kernel

end Verif.Files
