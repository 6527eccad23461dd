import Verif.Model.ToolRun
import Verif.Model.SpeedCommand
import Verif.Props.TestCommand
/-
C96, C98, C121, C138: the files of the tool are different files.
-/
namespace TFR
open Spec

/-- The files the tool reads and writes below the configured root directory. -/
inductive Spec.ToolFile where
  | trng
  | drng
  | report (t : WT)
  | powers (t : WT)
  | times (t : WT)
  | picture (t : WT) (name : String)

/-- Their names. -/
def Spec.toolFileName : ToolFile → String
  | .trng => "data/trng.bin"
  | .drng => "data/drng.bin"
  | .report t => "result_" ++ toString t.bits ++ ".md"
  | .powers t => "power_of_two_per_test" ++ toString t.bits ++ ".md"
  | .times t => "speed_per_test" ++ toString t.bits ++ ".md"
  | .picture t name => "ppm" ++ toString t.bits ++ "/" ++ name ++ ".ppm"

private theorem files_fixed (f g : ToolFile) (hf : ∀ t name, f ≠ .picture t name) (hg : ∀ t name, g ≠ .picture t name)
    (h : (toolFileName f).toList = (toolFileName g).toList) : f = g := by
  revert h
  rcases f with _ | _ | t | t | t | ⟨t, name⟩
  on_goal 6 => exact absurd rfl (hf t name)
  all_goals rcases g with _ | _ | t' | t' | t' | ⟨t', name'⟩
  all_goals first
    | exact absurd rfl (hg t' name')
    | exact fun _ => rfl
    | exact fun h => absurd h (by decide +kernel)
    | (cases t <;> cases t' <;> first | exact fun _ => rfl | exact fun h => absurd h (by decide +kernel))
    | (cases t <;> exact fun h => absurd h (by decide +kernel))
    | (cases t' <;> exact fun h => absurd h (by decide +kernel))

/-- C96, C98, C121, C138. The data files, the reports, the two kinds of tables and the pictures, for all word types, are the files with
these names below the root directory, and no two of them are the same file: no command overwrites what another wrote. -/
theorem C96_files (c : Config) :
    (c.trngFilePath = c.rootPath ++ toolFileName .trng ∧ c.drngFilePath = c.rootPath ++ toolFileName .drng ∧
      ∀ t, c.testResultFilePath t = c.rootPath ++ toolFileName (.report t) ∧
        c.perTestFilePath t "power_of_two" = c.rootPath ++ toolFileName (.powers t) ∧
        c.perTestFilePath t "speed" = c.rootPath ++ toolFileName (.times t) ∧
        ∀ name, c.ppmDir t ++ name ++ ".ppm" = c.rootPath ++ toolFileName (.picture t name)) ∧
    ∀ f g : ToolFile, c.rootPath ++ toolFileName f = c.rootPath ++ toolFileName g → f = g := by
  refine ⟨⟨?_, ?_, fun t => ⟨?_, ?_, ?_, fun name => ?_⟩⟩, fun f g h => ?_⟩
  · unfold Config.trngFilePath Config.dataDir; rw [String.append_assoc]; rfl
  · unfold Config.drngFilePath Config.dataDir; rw [String.append_assoc]; rfl
  · unfold Config.testResultFilePath Config.resultDir toolFileName; simp only [String.append_assoc]
  · unfold Config.perTestFilePath Config.resultDir toolFileName
    rw [show "power_of_two_per_test" = "power_of_two" ++ "_per_test" by decide +kernel]
    simp only [String.append_assoc]
  · unfold Config.perTestFilePath Config.resultDir toolFileName
    rw [show "speed_per_test" = "speed" ++ "_per_test" by decide +kernel]
    simp only [String.append_assoc]
  · unfold Config.ppmDir toolFileName; simp only [String.append_assoc]
  · have h := congrArg String.toList h
    rw [String.toList_append, String.toList_append] at h
    have h := List.append_cancel_left h
    have hpic : ∀ t name, (toolFileName (.picture t name)).toList = ("ppm" ++ toString t.bits ++ "/").toList ++ (name.toList ++ ".ppm".toList) := by
      intro t name
      unfold toolFileName
      simp only [String.toList_append, List.append_assoc]
    have hfix : ∀ f : ToolFile, (∀ t name, f ≠ .picture t name) → ((toolFileName f).toList.take 2 ≠ "pp".toList) := by
      intro f hf
      cases f with
      | picture t name => exact absurd rfl (hf t name)
      | trng => decide +kernel
      | drng => decide +kernel
      | report t => cases t <;> decide +kernel
      | powers t => cases t <;> decide +kernel
      | times t => cases t <;> decide +kernel
    have htake : ∀ t name, (toolFileName (.picture t name)).toList.take 2 = "pp".toList := by
      intro t name
      rw [hpic, List.take_append_of_le_length (by cases t <;> decide +kernel)]
      cases t <;> decide +kernel
    cases f with
    | picture t name =>
      cases g with
      | picture t' name' =>
        rw [hpic, hpic] at h
        obtain rfl : t = t' := by
          have h5 := congrArg (List.take 5) h
          rw [List.take_append_of_le_length (by cases t <;> decide +kernel),
            List.take_append_of_le_length (by cases t' <;> decide +kernel)] at h5
          revert h5
          cases t <;> cases t' <;> first | exact fun _ => rfl | exact fun h => absurd h (by decide +kernel)
        have := List.append_cancel_right (List.append_cancel_left h)
        rw [String.toList_inj.1 this]
      | _ =>
        exfalso
        have := htake t name
        rw [h] at this
        exact hfix _ (by intros; simp) this
    | _ =>
      cases g with
      | picture t' name' =>
        exfalso
        have := htake t' name'
        rw [← h] at this
        exact hfix _ (by intros; simp) this
      | _ => exact files_fixed _ _ (by intros; simp) (by intros; simp) h

example : Config.perTestFilePath ⟨"r/"⟩ .u16 "speed" = "r/speed_per_test16.md" ∧ Config.ppmDir ⟨"r/"⟩ .u8 ++ "m" ++ ".ppm" = "r/ppm8/m.ppm" := by
  decide +kernel

end TFR
