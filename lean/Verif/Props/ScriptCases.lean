import Verif.Core.Script
import Verif.Props.Cli

/-!
C138: the options `--args` and `--profile` in the parsers of all commands, by evaluation.
-/

set_option linter.unusedSectionVars false

namespace Verif.Script

open Verif.Py Verif.Cli

variable {α β : Type}

/-- Evaluates the parsers for a given command. -/
local macro "evaluate" "[" hs:Lean.Parser.Tactic.simpLemma,* "]" : tactic =>
  `(tactic| simp [main, postprocess, parsed, dests, problem, general, adjustEndTime, buildSolver, addSaveHistory,
      assertSolvers, buildSaveData, select, Cli.get, Cli.set, del, dels, List.lookup, call, signature, bind, Except.bind, Except.map,
      $hs,*])

/-- The values of the options with other ones for `--args` and `--profile`. -/
def altered (value : String → α) (args profile : α) (d : String) : α :=
  if d = "args" then args else if d = "profile" then profile else value d

/-- Evaluates the parsers for all commands and all cases of the values. -/
local macro "all_cases" c:ident w:ident value:ident "[" hs:Lean.Parser.Tactic.simpLemma,* "]" : tactic =>
  `(tactic| (
    cases $c:ident
    case analyzeCurvature => evaluate [$hs,*]
    case analyzeData => evaluate [$hs,*]
    case deleteCurvature => evaluate [$hs,*]
    case help => evaluate [$hs,*]
    case test => evaluate [$hs,*]
    case printNetwork => evaluate [$hs,*]
    case calculate =>
      cases h1 : World.truthy $w ($value "end_time") <;> cases h2 : World.isNone $w ($value "solver") <;>
        cases h3 : World.build $w (timed $w ($value "benchmark") ($value "end_time")) ($value "solver") <;>
        simp [timed, h1] at h3 <;> evaluate [h1, h2, h3, $hs,*]
    case plot =>
      cases h1 : World.truthy $w ($value "end_time") <;> cases h2 : World.isNone $w ($value "solver") <;>
        cases h4 : World.isNone $w ($value "save_data") <;>
        cases h3 : World.build $w (timed $w ($value "benchmark") ($value "end_time")) ($value "solver") <;>
        simp [timed, h1] at h3 <;> evaluate [h1, h2, h3, h4, $hs,*]
    case animate =>
      cases h1 : World.truthy $w ($value "end_time") <;> cases h2 : World.isNone $w ($value "solver") <;>
        cases h4 : World.isNone $w (World.withHistory $w ($value "solver")) <;>
        cases h3 : World.build $w (timed $w ($value "benchmark") ($value "end_time"))
          (World.withHistory $w ($value "solver")) <;>
        simp [timed, h1] at h3 <;> evaluate [h1, h2, h3, h4, $hs,*]
    case plotErrorEvolution =>
      cases h1 : World.truthy $w ($value "end_time") <;> cases h2 : World.isNone $w ($value "solver") <;>
        cases h5 : World.isNone $w (World.withHistory $w ($value "solver")) <;>
        by_cases h4 : World.length $w ($value "solver") = 2 <;>
        cases h3 : World.build $w (timed $w ($value "benchmark") ($value "end_time"))
          (World.withHistory $w ($value "solver")) <;>
        simp [timed, h1] at h3 <;> evaluate [h1, h2, h3, h4, h5, $hs,*]
    case eoc =>
      cases h1 : World.truthy $w ($value "end_time") <;>
        cases h3 : World.eoc $w (timed $w ($value "benchmark") ($value "end_time")) ($value "solver")
          ($value "mesh_size") ($value "refine") <;>
        simp [timed, h1] at h3 <;> evaluate [h1, h3, $hs,*]
    case generateData =>
      cases h1 : World.isNone $w ($value "directory") <;> cases h2 : World.isNone $w ($value "solver") <;>
        by_cases h4 : World.length $w ($value "solver") = 1 <;> cases h5 : World.directory $w ($value "solver") <;>
        cases h3 : World.build $w (World.oscillation $w) ($value "solver") <;> evaluate [h1, h2, h3, h4, h5, $hs,*]
    case parameterVariationTest =>
      cases h1 : World.truthy $w ($value "end_time") <;> cases h2 : World.isNone $w ($value "solver") <;>
        cases h7 : World.isNone $w (World.withHistory $w ($value "solver")) <;>
        by_cases h4 : World.length $w ($value "solver") = 2 <;> cases h5 : World.isNone $w ($value "variations") <;>
        cases h6 : World.variations $w ($value "variations") <;>
        cases h3 : World.build $w (timed $w (World.oscillation $w) ($value "end_time"))
          (World.withHistory $w ($value "solver")) <;>
        simp [timed, h1] at h3 <;> evaluate [h1, h2, h3, h4, h5, h6, h7, $hs,*]
    case trainNetwork =>
      cases h1 : World.truthy $w ($value "resume_training")
      · cases h2 : World.setParams $w (World.trainable $w ($value "network")) ($value "parameter") <;>
          evaluate [h1, h2, $hs,*]
      · cases h3 : World.load $w (World.trainable $w ($value "network")) with
        | error e => evaluate [h1, h3, $hs,*]
        | ok n => cases h2 : World.setParams $w n ($value "parameter") <;> evaluate [h1, h2, h3, $hs,*]))

set_option maxHeartbeats 3000000 in
/-- C138.  The class of the command and its arguments do not depend on `--args` and `--profile`. -/
theorem C138_independent (w : World α) (value : String → α) (args profile : α) (c : Cmd) :
    main w c (altered value args profile) = main w c value := by
  all_cases c w value [altered]

set_option maxHeartbeats 3000000 in
/-- The values of the two options after `postprocess`. -/
theorem kept (w : World α) (value : String → α) (c : Cmd) :
    (postprocess w c (parsed c value)).map (fun ns => (ns.lookup "args", ns.lookup "profile", (ns.lookup "command").isSome)) =
      (postprocess w c (parsed c value)).map fun _ => (some (value "args"), some (value "profile"), true) := by
  all_cases c w value [Except.map]

/-- Which commands are given a benchmark. -/
def givesBenchmark (c : Cmd) : Bool := c = .animate || c = .plot || c = .eoc

set_option maxHeartbeats 3000000 in
theorem benchmark_given (w : World α) (value : String → α) (c : Cmd) :
    (main w c value).map (fun r => (r.2.lookup "benchmark").isSome) = (main w c value).map fun _ => givesBenchmark c := by
  all_cases c w value [Except.map, givesBenchmark]

end Verif.Script
