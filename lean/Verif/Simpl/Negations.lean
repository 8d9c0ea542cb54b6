import Verif.Simpl.Props
import Verif.Parser.Props
/-! # C36: minimising negations is not an equivalence with constraints -/
namespace Verif.Simpl
open Verif Verif.Tree

/-- at most one of `a`, `b`, with the auxiliary variable `@s` -/
def exEnc : Fm String → Fm String
  | .cc .le 1 ["a", "b"] => .and [.or [.lit ⟨"a", false⟩, .lit ⟨"@s", true⟩], .or [.lit ⟨"@s", false⟩, .lit ⟨"b", false⟩]]
  | .cc .gt 1 ["a", "b"] => .and [.lit ⟨"a", true⟩, .lit ⟨"b", true⟩]
  | f => f

/-- `(a + b <= 1) & ~(~p0 | … | ~p23)` -/
def exNeg : Fm String := .and [.cc .le 1 ["a", "b"], .not (.or ((List.range 24).map fun i => .lit ⟨String.ofList ['p', Char.ofNat (97 + i)], false⟩))]

/-- The claim is false for formulas with constraints: their encodings, exact up to auxiliary variables, get into the result, which is then not equivalent to the formula
(the length is the length of the printed formula). -/
theorem C36_negations_false : ∃ (enc : Fm String → Fm String) (f g : Fm String), (∀ c ∈ NF.pbs f, NF.isPB c = true → Spec.CnfOf (· = "@s") c (enc c)) ∧
    minimizeNegations false enc (fun f => (Parser.sprint f).length) f = some g ∧ ¬ Fm.Equivalent g f := by
  refine ⟨exEnc, exNeg, .and ((List.range 24).map (fun i => .lit ⟨String.ofList ['p', Char.ofNat (97 + i)], true⟩) ++
    [.not (.or [.and [.lit ⟨"a", true⟩, .lit ⟨"@s", false⟩], .and [.lit ⟨"@s", true⟩, .lit ⟨"b", true⟩]])]), ?_, by decide +kernel, fun h => ?_⟩
  · intro c hc hp
    have hc : c = .cc .le 1 ["a", "b"] ∨ c = .cc .gt 1 ["a", "b"] := by
      have h : NF.pbs exNeg = [.cc .le 1 ["a", "b"], .cc .gt 1 ["a", "b"]] := by decide +kernel
      rw [h] at hc
      simpa using hc
    rcases hc with rfl | rfl
    · refine ⟨by decide, fun w hw => ?_, fun v hv => ⟨fun x => if x = "@s" then v "a" else v x, fun x hx => if_neg hx, ?_⟩, ?_⟩
      · simp [exEnc, Lit.eval, cntTrue, Cmp.holds] at hw ⊢
        cases ha : w "a" <;> cases hb : w "b" <;> simp_all
      · simp [exEnc, Lit.eval, cntTrue, Cmp.holds] at hv ⊢
        cases ha : v "a" <;> cases hb : v "b" <;> simp_all
      · have h : ∀ x ∈ (exEnc (.cc .le 1 ["a", "b"])).vars, x ∈ (Fm.cc .le 1 ["a", "b"] : Fm String).vars ∨ x = "@s" := by decide +kernel
        exact h
    · refine ⟨by decide, fun w hw => ?_, fun v hv => ⟨v, fun x hx => rfl, ?_⟩, ?_⟩
      · simp [exEnc, Lit.eval, cntTrue, Cmp.holds] at hw ⊢
        simp [hw]
      · simp [exEnc, Lit.eval, cntTrue, Cmp.holds] at hv ⊢
        cases ha : v "a" <;> cases hb : v "b" <;> simp_all
      · have h : ∀ x ∈ (exEnc (.cc .gt 1 ["a", "b"])).vars, x ∈ (Fm.cc .gt 1 ["a", "b"] : Fm String).vars ∨ x = "@s" := by decide +kernel
        exact h
  · have := h fun x => !(x == "b") && !(x == "@s")
    revert this
    decide +kernel

end Verif.Simpl
