import Verif.Core.Files
import Verif.Props.PyNumberCommands

/-!
# The files the commands write do not get lost

Independent descriptions: `Extension` says what the extension of a path is, `Directory` what its directory is.
-/

set_option linter.unusedSectionVars false

namespace Verif.Files

/-! ### Extensions -/

/-- A directory: nothing, or something that ends with a separator. -/
def Directory (d : Path) : Prop := d = [] ∨ ∃ q, d = q ++ ['/']

/-- The path `p` is `root` with the extension `ext`: a point and what follows it, behind a name that does not only
consist of points. -/
def Extension (p root ext : Path) : Prop :=
  ∃ dir name e, p = dir ++ name ++ '.' :: e ∧ root = dir ++ name ∧ ext = '.' :: e ∧ Directory dir ∧ '/' ∉ name ∧
    (∃ c ∈ name, c ≠ '.') ∧ '.' ∉ e ∧ '/' ∉ e

theorem rfind_nonneg_or (c : Char) (p : Path) :
    (rfind c p = -1 ∧ c ∉ p) ∨ ∃ a b, p = a ++ c :: b ∧ c ∉ b ∧ rfind c p = a.length := by
  induction p with
  | nil => exact Or.inl ⟨rfl, by simp⟩
  | cons d p ih =>
    rcases ih with ⟨h, hp⟩ | ⟨a, b, rfl, hb, h⟩
    · by_cases hd : d = c
      · exact Or.inr ⟨[], p, by simp [hd], hp, by simp [rfind, h, hd]⟩
      · exact Or.inl ⟨by simp [rfind, h, hd], by simp [hp, Ne.symm hd]⟩
    · refine Or.inr ⟨d :: a, b, by simp, hb, ?_⟩
      have : ((a.length : ℤ)) ≠ -1 := by omega
      rw [rfind, if_pos (by rw [h]; exact this), h]
      simp

theorem split_last {c : Char} {a b a' b' : Path} (h : a ++ c :: b = a' ++ c :: b') (hb : c ∉ b) (hb' : c ∉ b') :
    a = a' ∧ b = b' := by
  rcases List.append_eq_append_iff.1 h with ⟨x, rfl, hx⟩ | ⟨x, rfl, hx⟩
  · cases x with
    | nil => simp at hx; simp [hx]
    | cons y x =>
      simp only [List.cons_append, List.cons.injEq] at hx
      exact absurd (by rw [hx.2]; simp) hb
  · cases x with
    | nil => simp at hx; simp [hx]
    | cons y x =>
      simp only [List.cons_append, List.cons.injEq] at hx
      exact absurd (by rw [hx.2]; simp) hb'

theorem rfind_append {c : Char} (a : Path) {b : Path} (hb : c ∉ b) : rfind c (a ++ c :: b) = a.length := by
  rcases rfind_nonneg_or c (a ++ c :: b) with ⟨_, h⟩ | ⟨a', b', h, hb', h'⟩
  · exact absurd (by simp) h
  · rw [h', (split_last h hb hb').1]

theorem rfind_not {c : Char} {p : Path} (h : c ∉ p) : rfind c p = -1 := by
  rcases rfind_nonneg_or c p with ⟨h', _⟩ | ⟨a, b, rfl, _, _⟩
  · exact h'
  · exact absurd (by simp) h

theorem splitext_of_extension {p root ext : Path} (h : Extension p root ext) : splitext p = (root, ext) := by
  obtain ⟨dir, name, e, rfl, rfl, rfl, hdir, hname, ⟨c, hc, hc'⟩, he, he'⟩ := h
  have hdot : rfind '.' (dir ++ name ++ '.' :: e) = (dir ++ name).length := rfind_append _ he
  have hne : name ≠ [] := by rintro rfl; simp at hc
  have hlen : 0 < name.length := List.length_pos_iff.2 hne
  have hsep : rfind '/' (dir ++ name ++ '.' :: e) = (dir.length : ℤ) - 1 := by
    rcases hdir with rfl | ⟨q, rfl⟩
    · rw [rfind_not (by simp [hname, he'])]; simp
    · have := rfind_append (c := '/') q (b := name ++ '.' :: e) (by simp [hname, he'])
      have h2 : q ++ ['/'] ++ name ++ '.' :: e = q ++ '/' :: (name ++ '.' :: e) := by simp
      rw [h2, this]; simp
  unfold splitext
  simp only [hdot, hsep]
  have ht : ((dir ++ name).length : ℤ).toNat = (dir ++ name).length := Int.toNat_natCast _
  have ht' : ((dir.length : ℤ) - 1 + 1).toNat = dir.length := by omega
  have hcond : ((List.take ((dir ++ name).length : ℤ).toNat (dir ++ name ++ '.' :: e)).drop
      ((dir.length : ℤ) - 1 + 1).toNat).any (· ≠ '.') = true := by
    rw [ht, ht', List.take_left, List.drop_left, List.any_eq_true]
    exact ⟨c, hc, by simpa using hc'⟩
  rw [if_pos ⟨by simp <;> omega, hcond⟩, ht, List.take_left, List.drop_left]

theorem splitext_cases (p : Path) :
    Extension p (splitext p).1 (splitext p).2 ∨ splitext p = (p, []) := by
  by_cases hc : rfind '/' p < rfind '.' p ∧
      ((p.take (rfind '.' p).toNat).drop (rfind '/' p + 1).toNat).any (· ≠ '.')
  · left
    have hs : splitext p = (p.take (rfind '.' p).toNat, p.drop (rfind '.' p).toNat) := by
      unfold splitext; simp only; rw [if_pos hc]
    rw [hs]
    rcases rfind_nonneg_or '.' p with ⟨h, _⟩ | ⟨a, e, hp, he, h⟩
    · exfalso
      rcases rfind_nonneg_or '/' p with ⟨h', _⟩ | ⟨a, b, _, _, h'⟩
      · rw [h, h'] at hc; simp at hc
      · rw [h, h'] at hc; omega
    · rw [h] at hc ⊢
      rw [Int.toNat_natCast] at hc ⊢
      subst hp
      rw [List.take_left] at hc ⊢
      rw [List.drop_left]
      rcases rfind_nonneg_or '/' (a ++ '.' :: e) with ⟨h', hn⟩ | ⟨q, b, hp, hb, h'⟩
      · rw [h'] at hc
        obtain ⟨x, hx, hx'⟩ := List.any_eq_true.1 hc.2
        simp at hn
        refine ⟨[], a, e, by simp, by simp, rfl, Or.inl rfl, hn.1, ⟨x, ?_, by simpa using hx'⟩, he, hn.2⟩
        simpa using hx
      · rw [h'] at hc
        have hlt : q.length < a.length := by exact_mod_cast hc.1
        rcases List.append_eq_append_iff.1 hp with ⟨x, rfl, hx⟩ | ⟨x, rfl, hx⟩
        · simp at hlt <;> omega
        · cases x with
          | nil => simp at hlt
          | cons y x =>
            simp only [List.cons_append, List.cons.injEq] at hx
            obtain ⟨rfl, rfl⟩ := hx
            simp at hb
            obtain ⟨z, hz, hz'⟩ := List.any_eq_true.1 hc.2
            refine ⟨q ++ ['/'], x, e, by simp, by simp, rfl, Or.inr ⟨q, rfl⟩, hb.1, ⟨z, ?_, by simpa using hz'⟩, he,
              hb.2⟩
            have h3 : ((q.length : ℤ) + 1).toNat = (q ++ ['/']).length := by simp <;> omega
            have h4 : q ++ '/' :: x = (q ++ ['/']) ++ x := by simp
            rw [h3, h4, List.drop_left] at hz
            exact hz
  · right
    unfold splitext; simp only; rw [if_neg hc]

theorem extension_append {p root ext : Path} (h : Extension p root ext) : root ++ ext = p := by
  obtain ⟨dir, name, e, rfl, rfl, rfl, _⟩ := h
  rfl

/-- What `splitext` computes: the extension of the path and what precedes it; the whole path and nothing for a path
without extension. -/
theorem C131_extension (p a b : Path) :
    splitext p = (a, b) ↔ Extension p a b ∨ ((¬ ∃ r e, Extension p r e) ∧ a = p ∧ b = []) := by
  constructor
  · intro h
    rcases splitext_cases p with hc | hc
    · rw [h] at hc; exact Or.inl hc
    · right
      rw [h] at hc
      obtain ⟨rfl, rfl⟩ := Prod.mk.inj hc
      refine ⟨?_, rfl, rfl⟩
      rintro ⟨r, e, he⟩
      have := splitext_of_extension he
      rw [h] at this
      obtain ⟨_, rfl⟩ := Prod.mk.inj this
      obtain ⟨_, _, _, _, _, h3, _⟩ := he
      cases h3
  · rintro (h | ⟨h, rfl, rfl⟩)
    · exact splitext_of_extension h
    · rcases splitext_cases a with hc | hc
      · exact absurd ⟨_, _, hc⟩ h
      · exact hc

theorem splitext_append (p : Path) : (splitext p).1 ++ (splitext p).2 = p := by
  rcases splitext_cases p with h | h
  · exact extension_append h
  · rw [h]; simp

example : splitext "out/run.1/plot.tar.png".toList = ("out/run.1/plot.tar".toList, ".png".toList) := by decide +kernel
example : splitext "out/run.1/plot".toList = ("out/run.1/plot".toList, []) := by decide +kernel
example : splitext "out/..png".toList = ("out/..png".toList, []) := by decide +kernel

/-! ### Suffixes -/

/-- What is put before the extension: something without points and separators. -/
def Plain (s : Path) : Prop := s ≠ [] ∧ '.' ∉ s ∧ '/' ∉ s

theorem directory_split (p : Path) : ∃ dir name, p = dir ++ name ∧ Directory dir ∧ '/' ∉ name := by
  rcases rfind_nonneg_or '/' p with ⟨_, h⟩ | ⟨a, b, rfl, hb, _⟩
  · exact ⟨[], p, rfl, Or.inl rfl, h⟩
  · exact ⟨a ++ ['/'], b, by simp, Or.inr ⟨a, rfl⟩, hb⟩

theorem splitext_suffix (q : Path) {s e : Path} (hs : Plain s) (he : '.' ∉ e) (he' : '/' ∉ e) :
    splitext (q ++ s ++ '.' :: e) = (q ++ s, '.' :: e) := by
  obtain ⟨dir, name, rfl, hd, hn⟩ := directory_split q
  apply splitext_of_extension
  obtain ⟨c, hc⟩ := List.exists_mem_of_ne_nil _ hs.1
  refine ⟨dir, name ++ s, e, by simp, by simp, rfl, hd, by simp [hn, hs.2.2], ⟨c, by simp [hc], ?_⟩, he, he'⟩
  rintro rfl
  exact hs.2.1 hc

theorem splitext_plain {p s : Path} (hs : Plain s) (hp : splitext p = (p, [])) : splitext (p ++ s) = (p ++ s, []) := by
  rw [C131_extension] at hp ⊢
  right
  refine ⟨?_, rfl, rfl⟩
  rintro ⟨r, b, dir, name, e, h, rfl, rfl, hd, hn, hc, he, he'⟩
  rcases hp with hp | ⟨hp, _⟩
  · obtain ⟨_, _, _, _, _, h3, _⟩ := hp
    cases h3
  apply hp
  rcases List.append_eq_append_iff.1 h with ⟨x, h1, h2⟩ | ⟨x, h1, h2⟩
  · exact absurd (by rw [h2]; simp) hs.2.1
  · cases x with
    | nil =>
      simp only [List.nil_append] at h2
      exact absurd (by rw [← h2]; simp) hs.2.1
    | cons y x =>
      simp only [List.cons_append, List.cons.injEq] at h2
      obtain ⟨rfl, rfl⟩ := h2
      exact ⟨dir ++ name, '.' :: x, dir, name, x, h1, rfl, rfl, hd, hn, hc, fun h => he (by simp [h]),
        fun h => he' (by simp [h])⟩

/-- The extension without its point has neither points nor separators. -/
theorem splitext_form (p : Path) :
    ((splitext p).2 = [] ∧ (splitext p).1 = p) ∨ ∃ e, (splitext p).2 = '.' :: e ∧ '.' ∉ e ∧ '/' ∉ e := by
  rcases splitext_cases p with ⟨_, _, e, _, _, h, _, _, _, he, he'⟩ | h
  · exact Or.inr ⟨e, h, he, he'⟩
  · rw [h]; exact Or.inl ⟨rfl, rfl⟩

theorem splitext_inserted (p : Path) {s : Path} (hs : Plain s) :
    splitext (inserted p s) = ((splitext p).1 ++ s, (splitext p).2) := by
  unfold inserted
  rcases splitext_form p with ⟨h, h'⟩ | ⟨e, h, he, he'⟩
  · rw [h, h', List.append_nil]
    exact splitext_plain hs (by rw [← h]; exact Prod.ext h' rfl)
  · rw [h]; exact splitext_suffix _ hs he he'

/-- The path with a suffix has the extension of the path, and the suffix before it; so paths and suffixes can be read
off. -/
theorem C131_suffix (p p' s s' : Path) (hs : Plain s) (hs' : Plain s') (hl : s.length = s'.length) :
    inserted p s = inserted p' s' ↔ p = p' ∧ s = s' := by
  constructor
  · intro h
    have h1 := splitext_inserted p hs
    rw [h, splitext_inserted p' hs'] at h1
    obtain ⟨h2, h3⟩ := Prod.mk.inj h1
    obtain ⟨h4, h5⟩ := List.append_inj' h2 hl.symm
    refine ⟨?_, h5.symm⟩
    rw [← splitext_append p, ← splitext_append p', h3, h4]
  · rintro ⟨rfl, rfl⟩; rfl

example : Plain "_h".toList ∧ Plain "_q".toList ∧ "_h".toList.length = "_q".toList.length ∧
    inserted "a.b/plot.png".toList "_h".toList = "a.b/plot_h.png".toList := by
  refine ⟨⟨?_, ?_, ?_⟩, ⟨?_, ?_, ?_⟩, ?_, ?_⟩ <;> decide +kernel

/-! ### Plots -/

/-- The extension of a saved figure. -/
def shown (p : Path) : Path := if (splitext p).2 = [] ∨ (splitext p).2 = ['.'] then ".png".toList else (splitext p).2

theorem plain_h : Plain "_h".toList := by refine ⟨?_, ?_, ?_⟩ <;> decide
theorem plain_q : Plain "_q".toList := by refine ⟨?_, ?_, ?_⟩ <;> decide
theorem plain_v : Plain "_v".toList := by refine ⟨?_, ?_, ?_⟩ <;> decide

theorem figureName_inserted (p : Path) {s : Path} (hs : Plain s) :
    figureName (inserted p s) = (splitext p).1 ++ s ++ shown p := by
  obtain ⟨t, c, rfl⟩ : ∃ t c, s = t ++ [c] := ⟨s.dropLast, s.getLast hs.1, (List.dropLast_append_getLast hs.1).symm⟩
  have hc : c ≠ '.' := by rintro rfl; exact hs.2.1 (by simp)
  unfold figureName shown
  rw [splitext_inserted p hs]
  dsimp only
  by_cases h : (splitext p).2 = [] ∨ (splitext p).2 = ['.']
  · rw [if_pos h, if_pos h]
    congr 1
    unfold inserted
    rcases h with h | h <;> rw [h] <;> simp [hc]
  · rw [if_neg h, if_neg h]
    rfl

theorem shown_form (p : Path) : ∃ e, shown p = '.' :: e ∧ '.' ∉ e ∧ '/' ∉ e := by
  unfold shown
  by_cases h : (splitext p).2 = [] ∨ (splitext p).2 = ['.']
  · rw [if_pos h]; exact ⟨"png".toList, by decide, by decide, by decide⟩
  · rw [if_neg h]
    rcases splitext_form p with ⟨h', _⟩ | h'
    · exact absurd (Or.inl h') h
    · exact h'

theorem splitext_figure (p : Path) {s : Path} (hs : Plain s) :
    splitext (figureName (inserted p s)) = ((splitext p).1 ++ s, shown p) := by
  rw [figureName_inserted p hs]
  obtain ⟨e, h, he, he'⟩ := shown_form p
  rw [h]
  exact splitext_suffix _ hs he he'

theorem figure_figure (p : Path) {s s' : Path} (hs : Plain s) (hs' : Plain s') :
    figureName (inserted p s) = figureName (inserted p s') ↔ s = s' := by
  constructor
  · intro h
    have h1 := splitext_figure p hs
    rw [h, splitext_figure p hs'] at h1
    exact (List.append_cancel_left (Prod.mk.inj h1).1).symm
  · rintro rfl; rfl

theorem figure_data (p d : Path) {s s' : Path} (hs : Plain s) (hs' : Plain s') (hl : s.length = s'.length) :
    figureName (inserted p s) = inserted d s' ↔ s = s' ∧ splitext d = ((splitext p).1, shown p) := by
  constructor
  · intro h
    have h1 := splitext_figure p hs
    rw [h, splitext_inserted d hs'] at h1
    obtain ⟨h2, h3⟩ := Prod.mk.inj h1
    obtain ⟨h4, h5⟩ := List.append_inj' h2 hl.symm
    exact ⟨h5.symm, Prod.ext h4 h3⟩
  · rintro ⟨rfl, h⟩
    rw [figureName_inserted p hs, inserted, h]

/-- Figures and data are written to the directory of the path given. -/
theorem C131_directory (dir name : Path) (hd : Directory dir) (hn : '/' ∉ name) (s : Path) (hs : Plain s) :
    ∃ n n', inserted (dir ++ name) s = dir ++ n ∧ '/' ∉ n ∧ figureName (inserted (dir ++ name) s) = dir ++ n' ∧
      '/' ∉ n' := by
  have hext : '/' ∉ (splitext (dir ++ name)).2 := by
    rcases splitext_form (dir ++ name) with ⟨h, _⟩ | ⟨e, h, _, he⟩
    · rw [h]; simp
    · rw [h]; simp [he]
  obtain ⟨x, hx, hx'⟩ : ∃ x, (splitext (dir ++ name)).1 = dir ++ x ∧ '/' ∉ x := by
    rcases List.append_eq_append_iff.1 (splitext_append (dir ++ name)) with ⟨x, h1, h2⟩ | ⟨x, h1, h2⟩
    · refine ⟨[], ?_, by simp⟩
      have hx : x = [] := by
        by_contra hne
        have hmem : x.getLast hne = '/' := by
          rcases hd with rfl | ⟨q, rfl⟩
          · simp at h1; exact absurd h1.2 hne
          · have := congrArg List.getLast? h1
            rw [List.getLast?_append, List.getLast?_append, List.getLast?_eq_some_getLast hne] at this
            simpa using this.symm
        exact hext (by rw [h2]; exact List.mem_append_left _ (hmem ▸ List.getLast_mem hne))
      rw [hx, List.append_nil] at h1
      rw [List.append_nil]; exact h1.symm
    · exact ⟨x, h1, fun h => hn (by rw [h2]; simp [h])⟩
  obtain ⟨e, he, he1, he2⟩ := shown_form (dir ++ name)
  refine ⟨x ++ s ++ (splitext (dir ++ name)).2, x ++ s ++ shown (dir ++ name), ?_, ?_, ?_, ?_⟩
  · unfold inserted; rw [hx]; simp
  · simp [hx', hs.2.2, hext]
  · rw [figureName_inserted _ hs, hx]; simp
  · rw [he]; simp [hx', hs.2.2, he2]

example : Directory "a.b/".toList ∧ '/' ∉ "plot".toList ∧
    inserted ("a.b/".toList ++ "plot".toList) "_h".toList = "a.b/".toList ++ "plot_h".toList ∧
    figureName (inserted ("a.b/".toList ++ "plot".toList) "_h".toList) = "a.b/".toList ++ "plot_h.png".toList :=
  ⟨Or.inr ⟨"a.b".toList, by decide⟩, by decide, by decide +kernel, by decide +kernel⟩

variable {C : Type}

/-- The suffixes of height, discharge and velocity. -/
def quantity : Fin 3 → Path := ![ "_h".toList, "_q".toList, "_v".toList ]

theorem quantity_plain (i : Fin 3) : Plain (quantity i) := by
  fin_cases i
  · exact plain_h
  · exact plain_q
  · exact plain_v

theorem quantity_length (i j : Fin 3) : (quantity i).length = (quantity j).length := by
  fin_cases i <;> fin_cases j <;> rfl

theorem quantity_injective (i j : Fin 3) : quantity i = quantity j ↔ i = j := by
  fin_cases i <;> fin_cases j <;> decide

theorem waterPlot_eq (p d : Path) (hp : p ≠ []) (hd : d ≠ []) (figure results : Fin 3 → C) :
    waterPlot p d figure results =
      (List.finRange 3).map (fun i => (figureName (inserted p (quantity i)), figure i)) ++
      (List.finRange 3).map (fun i => (inserted d (quantity i), results i)) := by
  unfold waterPlot
  rw [if_pos hp, if_pos hd]
  rfl

theorem lookup_append {A : Type} [BEq A] (l l' : List (A × C)) (a : A) :
    (l ++ l').lookup a = (l.lookup a).or (l'.lookup a) := by
  induction l with
  | nil => simp
  | cons x l ih =>
    obtain ⟨k, v⟩ := x
    simp only [List.cons_append, List.lookup_cons]
    cases a == k
    · exact ih
    · rfl

theorem content_append (l l' : List (Path × C)) (q : Path) :
    content (l ++ l') q = (content l' q).or (content l q) := by
  unfold content
  rw [List.reverse_append, lookup_append]

theorem lookup_none {l : List (Path × C)} {q : Path} (h : ∀ x ∈ l, x.1 ≠ q) : l.lookup q = none := by
  induction l with
  | nil => rfl
  | cons x l ih =>
    obtain ⟨k, v⟩ := x
    have hk : k ≠ q := h (k, v) (by simp)
    rw [List.lookup_cons, beq_eq_false_iff_ne.2 (Ne.symm hk)]
    exact ih fun x hx => h x (by simp [hx])

theorem lookup_some {l : List (Path × C)} {q : Path} {v : C} (h : (q, v) ∈ l) (hu : ∀ x ∈ l, x.1 = q → x.2 = v) :
    l.lookup q = some v := by
  induction l with
  | nil => simp at h
  | cons x l ih =>
    obtain ⟨k, w⟩ := x
    by_cases hk : k = q
    · subst hk
      rw [List.lookup_cons, beq_self_eq_true]
      exact congrArg some (hu (k, w) (by simp) rfl)
    · rw [List.lookup_cons, beq_eq_false_iff_ne.2 (Ne.symm hk)]
      refine ih ?_ fun x hx => hu x (by simp [hx])
      rcases List.mem_cons.1 h with h | h
      · exact absurd (Prod.mk.inj h).1.symm hk
      · exact h

theorem content_none {l : List (Path × C)} {q : Path} (h : ∀ x ∈ l, x.1 ≠ q) : content l q = none :=
  lookup_none fun x hx => h x (List.mem_reverse.1 hx)

theorem content_some {l : List (Path × C)} {q : Path} {v : C} (h : (q, v) ∈ l) (hu : ∀ x ∈ l, x.1 = q → x.2 = v) :
    content l q = some v :=
  lookup_some (List.mem_reverse.2 h) fun x hx => hu x (List.mem_reverse.1 hx)

/-- Plots of the shallow water equations: the three files with plot data have the data of height, discharge and
velocity.  The three files with the figures have the figures, unless the paths given for figures and data have the same
name and the same extension (`.png` for a figure without one): then the data replace all figures. -/
theorem C131_water (p d : Path) (hp : p ≠ []) (hd : d ≠ []) (figure results : Fin 3 → C) (i : Fin 3) :
    content (waterPlot p d figure results) (inserted d (quantity i)) = some (results i) ∧
    content (waterPlot p d figure results) (figureName (inserted p (quantity i))) =
      some (if splitext d = ((splitext p).1, shown p) then results i else figure i) := by
  have hdata : ∀ j : Fin 3, content ((List.finRange 3).map fun i => (inserted d (quantity i), results i))
      (inserted d (quantity j)) = some (results j) := by
    intro j
    refine content_some (List.mem_map.2 ⟨j, List.mem_finRange _, rfl⟩) fun x hx hxq => ?_
    obtain ⟨k, _, rfl⟩ := List.mem_map.1 hx
    have := ((C131_suffix d d _ _ (quantity_plain k) (quantity_plain j) (quantity_length k j)).1 hxq).2
    rw [(quantity_injective k j).1 this]
  rw [waterPlot_eq p d hp hd]
  refine ⟨by rw [content_append, hdata]; rfl, ?_⟩
  rw [content_append]
  by_cases h : splitext d = ((splitext p).1, shown p)
  · rw [if_pos h, (figure_data p d (quantity_plain i) (quantity_plain i) rfl).2 ⟨rfl, h⟩, hdata]
    rfl
  · rw [if_neg h, content_none, Option.none_or]
    · refine content_some (List.mem_map.2 ⟨i, List.mem_finRange _, rfl⟩) fun x hx hxq => ?_
      obtain ⟨k, _, rfl⟩ := List.mem_map.1 hx
      have := (figure_figure p (quantity_plain k) (quantity_plain i)).1 hxq
      rw [(quantity_injective k i).1 this]
    · intro x hx hxq
      obtain ⟨k, _, rfl⟩ := List.mem_map.1 hx
      exact h ((figure_data p d (quantity_plain i) (quantity_plain k) (quantity_length i k)).1 hxq.symm).2

/-- With an extension of at least one letter the figures are replaced exactly if the two paths are the same. -/
theorem C131_water_same (p d : Path) (he : (splitext p).2 ≠ []) (he' : (splitext p).2 ≠ ['.']) :
    splitext d = ((splitext p).1, shown p) ↔ d = p := by
  have hs : shown p = (splitext p).2 := by
    unfold shown
    rw [if_neg]
    rintro (h | h)
    · exact he h
    · exact he' h
  rw [hs]
  constructor
  · intro h
    rw [← splitext_append d, h, splitext_append]
  · rintro rfl; rfl

/-- Plots of scalar equations. -/
theorem C131_scalar (p d : Path) (hp : p ≠ []) (hd : d ≠ []) (figure results : C) :
    content (scalarPlot p d figure results) d = some results ∧
    content (scalarPlot p d figure results) (figureName p) = some (if figureName p = d then results else figure) := by
  unfold scalarPlot
  rw [if_pos hp, if_pos hd]
  by_cases h : figureName p = d
  · rw [if_pos h, h]
    constructor <;> simp [content, List.lookup_cons]
  · rw [if_neg h]
    constructor
    · simp [content, List.lookup_cons]
    · have : (figureName p == d) = false := beq_eq_false_iff_ne.2 h
      simp [content, List.lookup_cons, this]

/-- Without a path for the data they are put beside the figure; the figures are replaced exactly if they are to be saved
with the extension of the data. -/
theorem C131_beside (p : Path) (hp : p ≠ []) :
    dataPath none (some p) = (splitext p).1 ++ ".pkl".toList ∧
    (figureName p = dataPath none (some p) ↔ (splitext p).2 = ".pkl".toList) ∧
    (splitext (dataPath none (some p)) = ((splitext p).1, shown p) ↔ (splitext p).2 = ".pkl".toList) := by
  have hd : dataPath none (some p) = (splitext p).1 ++ ".pkl".toList := by
    unfold dataPath; simp only; rw [if_neg hp]
  refine ⟨hd, ?_, ?_⟩
  · rw [hd]
    unfold figureName
    by_cases h : (splitext p).2 = [] ∨ (splitext p).2 = ['.']
    · rw [if_pos h]
      constructor
      · intro h'
        have := (List.append_inj' h' (by decide)).2
        exact absurd this (by decide)
      · intro h'
        rw [h'] at h
        exact absurd h (by decide)
    · rw [if_neg h]
      constructor
      · intro h'
        rw [← splitext_append p] at h'
        conv at h' => rhs; rw [splitext_append]
        exact List.append_cancel_left h'
      · intro h'
        rw [← h', splitext_append]
  · rw [hd]
    constructor
    · intro h
      have h1 := splitext_append ((splitext p).1 ++ ".pkl".toList)
      rw [h] at h1
      have h2 : shown p = ".pkl".toList := List.append_cancel_left h1
      unfold shown at h2
      by_cases h3 : (splitext p).2 = [] ∨ (splitext p).2 = ['.']
      · rw [if_pos h3] at h2; exact absurd h2 (by decide)
      · rw [if_neg h3] at h2; exact h2
    · intro h
      rw [← h, splitext_append]
      unfold shown
      rw [if_neg (by rw [h]; decide)]

/-- A path given for the data is the one that is used, whatever path is given for the figures. -/
theorem C131_given (save : Option Path) (d : Path) (figure results : C) (figures dataOf : Fin 3 → C) (i : Fin 3)
    (hd : d ≠ []) :
    content (scalarPlot (save.getD []) (dataPath (some d) save) figure results) d = some results ∧
    (inserted d (![ "_h".toList, "_q".toList, "_v".toList] i), dataOf i) ∈
      waterPlot (save.getD []) (dataPath (some d) save) figures dataOf := by
  constructor
  · by_cases hs : save.getD [] = []
    · rw [hs]
      unfold scalarPlot dataPath content
      simp only [ne_eq, not_true_eq_false, if_false, if_pos hd, List.nil_append]
      simp [List.lookup_cons]
    · exact (C131_scalar (save.getD []) d hs hd figure results).1
  · unfold waterPlot dataPath
    simp only [if_pos hd]
    refine List.mem_append_right _ ?_
    match i with
    | 0 => exact List.mem_cons_self
    | 1 => exact List.mem_cons_of_mem _ List.mem_cons_self
    | 2 => exact List.mem_cons_of_mem _ (List.mem_cons_of_mem _ List.mem_cons_self)

/-- Without any option for saving the data go to one fixed place, whatever is plotted. -/
theorem C131_default (figure results : C) (figures dataOf : Fin 3 → C) :
    scalarPlot [] (dataPath none none) figure results = [("data/plot.pkl".toList, results)] ∧
    waterPlot [] (dataPath none none) figures dataOf =
      [("data/plot_h.pkl".toList, dataOf 0), ("data/plot_q.pkl".toList, dataOf 1),
       ("data/plot_v.pkl".toList, dataOf 2)] := by
  refine ⟨rfl, ?_⟩
  have h : ∀ s : Path, inserted "data/plot.pkl".toList s = "data/plot".toList ++ s ++ ".pkl".toList := by
    intro s
    have : splitext "data/plot.pkl".toList = ("data/plot".toList, ".pkl".toList) := by decide +kernel
    unfold inserted; rw [this]
  unfold waterPlot dataPath
  simp only [h]
  rfl

example : let w := waterPlot "out/a.png".toList (dataPath none (some "out/a.png".toList)) ![1, 2, 3] ![4, 5, 6]
    content w "out/a_q.png".toList = some 2 ∧ content w "out/a_q.pkl".toList = some 5 ∧
    content w "out/a.png".toList = none := by decide +kernel

example : let w := waterPlot "out/a".toList "out/a.png".toList ![1, 2, 3] ![4, 5, 6]
    content w "out/a_q.png".toList = some 5 := by decide +kernel

end Verif.Files
