import Verif.Core.Present

/-!
# Files written by the commands

Names of the files the commands write, as lists of characters: `os.path.splitext`, the plots and plot data of
`command/plot.py`, the averages of `command/error_evolution.py` and the files of
`command/parameter_variation_test.py`.  Paths are compared as strings; that different strings can name one file
(`a/../b`, links) is not modelled.
-/

namespace Verif.Files

/-- A path. -/
abbrev Path := List Char

/-- `p.rfind(c)`. -/
def rfind (c : Char) : Path → ℤ
  | [] => -1
  | d :: p => if rfind c p ≠ -1 then rfind c p + 1 else if d = c then 0 else -1

/-- `os.path.splitext` for `/` as separator (`genericpath._splitext`): the extension begins with the last point, if it
stands behind the last separator and the name before it does not consist of points only (the `while` loop). -/
def splitext (p : Path) : Path × Path :=
  let sep := rfind '/' p
  let dot := rfind '.' p
  if sep < dot ∧ ((p.take dot.toNat).drop (sep + 1).toNat).any (· ≠ '.') then (p.take dot.toNat, p.drop dot.toNat)
  else (p, [])

/-- `base_name + suffix + extension`, `command/plot.py` lines 245-249 and 261, `command/error_evolution.py` lines
310-313. -/
def inserted (p suffix : Path) : Path := (splitext p).1 ++ suffix ++ (splitext p).2

/-- The file `savefig` writes when it is given a path (`matplotlib`, `FigureCanvasBase.print_figure` with
`savefig.format` at its default): without an extension, or with a single point as extension, points at the end are
removed and `.png` is added. -/
def figureName (p : Path) : Path :=
  if (splitext p).2 = [] ∨ (splitext p).2 = ['.'] then (p.reverse.dropWhile (· = '.')).reverse ++ ".png".toList else p

variable {C : Type}

/-- What a file contains after a sequence of writes: the last one counts. -/
def content (writes : List (Path × C)) (p : Path) : Option C := writes.reverse.lookup p

/-- `ScalarPlotter._save_plots` and `_save_results`, `command/plot.py` lines 130-148, in the order of `show`, lines
68-75.  An empty path is not used. -/
def scalarPlot (save data : Path) (figure results : C) : List (Path × C) :=
  (if save ≠ [] then [(figureName save, figure)] else []) ++ (if data ≠ [] then [(data, results)] else [])

/-- `ShallowWaterPlotter._save_plots` and `_save_results`, lines 243-275: height, discharge and velocity. -/
def waterPlot (save data : Path) (figure results : Fin 3 → C) : List (Path × C) :=
  (if save ≠ [] then
    [(figureName (inserted save "_h".toList), figure 0), (figureName (inserted save "_q".toList), figure 1),
     (figureName (inserted save "_v".toList), figure 2)] else []) ++
  (if data ≠ [] then
    [(inserted data "_h".toList, results 0), (inserted data "_q".toList, results 1),
     (inserted data "_v".toList, results 2)] else [])

/-- `PlotParser._build_save_data`, lines 427-433 (`none` is `None`). -/
def dataPath (data save : Option Path) : Path :=
  match data with
  | some d => d
  | none =>
    match save with
    | none => "data/plot.pkl".toList
    | some q => if q = [] then "data/plot.pkl".toList else (splitext q).1 ++ ".pkl".toList

/-- The files of a series: directory, indices of the benchmarks both solvers succeeded on, whether animations are
saved (`command/error_evolution.py` lines 217-275; `save_error` is set, `save_plot` raises an exception, C99). -/
def seriesFiles (directory : Path) (indices : List ℕ) (animation : Bool) : List Path :=
  indices.flatMap fun i =>
    figureName (directory ++ "/error_".toList ++ (toString i).toList ++ ".png".toList) ::
    (if animation then [directory ++ "/animation_".toList ++ (toString i).toList ++ ".mp4".toList] else [])

/-- `PlotShallowWaterAverageErrorEvolution.execute`, lines 309-313. -/
def averageFiles (save : Path) : List Path :=
  [figureName (inserted save "_h".toList), figureName (inserted save "_q".toList)]

/-- A variation as far as names of files are concerned: `name`, `short` and the values as they are printed
(`command/parameter_variation_test.py` lines 19-47). -/
structure Variation where
  name : Path
  short : Path
  values : List Path

/-- Lines 27-53.  The numbers `0.8 * 2.0`, `1.2 * 2.0`, 10, 15, 0.8, 1.0 and 1.5 in an f-string. -/
def variations : List Variation :=
  [⟨"height_average".toList, "H0".toList, ["1.6".toList, "2.4".toList]⟩,
   ⟨"height_wave_number".toList, "kh".toList, ["10".toList, "15".toList]⟩,
   ⟨"height_amplitude".toList, "A".toList, ["0.8".toList, "1.0".toList, "1.5".toList]⟩]

/-- A series of a test: its directory and the path given for its averages, both behind the directory of the test. -/
structure Series where
  directory : Path
  average : Path

/-- `_execute_parameter_variation_test`, lines 128-160. -/
def Variation.series (v : Variation) : List Series :=
  v.values.map fun x => ⟨v.name ++ '/' :: x, v.name ++ '/' :: v.short ++ '_' :: x ++ "_average.png".toList⟩

/-- `_build_reference_errors`, lines 105-126; an empty prefix is replaced, line 88. -/
def references (name pre : Path) : Series :=
  ⟨name, name ++ '/' :: (if pre = [] then "error".toList else pre) ++ "_average.png".toList⟩

/-- `execute`, lines 93-103: the series of a test; no reference errors for `None` or an empty string. -/
def testSeries (refs : Option Path) (pre : Path) (vs : List Variation) : List Series :=
  (match refs with
    | none => []
    | some r => if r = [] then [] else [references r pre]) ++ vs.flatMap Variation.series

/-- All files of a test, in the order they are written: for every series the files of its benchmarks, then the
averages.  `indices` are the benchmarks that succeed. -/
def testFiles (directory : Path) (animation : Bool) (indices : Series → List ℕ) (l : List Series) : List Path :=
  l.flatMap fun s =>
    seriesFiles (directory ++ s.directory) (indices s) animation ++ averageFiles (directory ++ s.average)

end Verif.Files
