/- Small loop combinators used by several models. -/
namespace Verif

/-- a loop with early exit: `none` means the loop was left with `return` -/
def foldOpt {A B : Type} (step : A → B → Option A) : A → List B → Option A
  | a, [] => some a
  | a, b :: bs => match step a b with
    | none => none
    | some a => foldOpt step a bs

theorem foldOpt_inv {A B : Type} {step : A → B → Option A} {P : A → Prop} :
    ∀ {bs : List B} {a a' : A}, (∀ a b a', b ∈ bs → P a → step a b = some a' → P a') → P a →
      foldOpt step a bs = some a' → P a'
  | [], a, a', _, h, e => by simp [foldOpt] at e; exact e ▸ h
  | b :: bs, a, a', hs, h, e => by
    simp only [foldOpt] at e
    cases h2 : step a b with
    | none => simp [h2] at e
    | some a2 =>
      simp only [h2] at e
      exact foldOpt_inv (fun a c a' hc => hs a c a' (by simp [hc])) (hs a b a2 (by simp) h h2) e

end Verif
