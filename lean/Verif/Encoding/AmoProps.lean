import Verif.Encoding.AmoCode
/-!
# Properties of the at-most-one and exactly-one encodings (C12)
-/
set_option linter.unusedSectionVars false
namespace Verif.Enc
open Verif
variable {α : Type}

/-- the positive literals of the constraint's variables -/
def usrs (vars : List α) : List (Lit (EV α)) := vars.map fun a => ⟨.usr a, true⟩

theorem usrs_old {vars : List α} {k : Nat} : ∀ l ∈ usrs vars, Old k l := by
  intro l hl; obtain ⟨a, _, rfl⟩ := List.mem_map.1 hl; exact old_usr
theorem cnt_usrs (vars : List α) (w : EV α → Bool) : cnt w (usrs vars) = vars.countP (fun a => w (.usr a)) := by
  simp only [cnt, usrs, List.countP_map]
  exact List.countP_congr fun a _ => by simp [Lit.eval]

theorem amo_exact {cfg : AmoCfg} {fuel k : Nat} {ls : List (Lit (EV α))} {r : List (Clause α) × Nat} (ho : ∀ l ∈ ls, Old k l)
    (h : amo cfg fuel k ls = some r) : Exact k r.2 ls r.1 (fun v => cnt v ls ≤ 1) := by
  unfold amo at h
  split at h
  · rename_i hn
    cases h
    exact .direct (by simp) fun v => by simp; exact Nat.le_trans (cnt_le v ls) hn
  · rename_i hn
    cases he : cfg.enc <;> simp only [he] at h
    · cases h; exact pure_exact _ _
    · cases h; exact ladder_exact (by omega) ho
    · exact product_exact _ _ _ _ (by omega) ho h
    · exact nested_exact _ _ _ _ ho h
    · exact (commander_exact _ _ _ _ _ (by intro e; simp [e] at hn) ho h).congr (fun l hl => ⟨l, hl, rfl⟩) (by simp)
    · cases h; exact binary_exact (by omega) ho
    · cases h
      refine bimander_exact ?_ ho
      unfold bimanderSize
      cases cfg.bimander
      · simp only; split <;> omega
      · simp only; omega
      · simp only; exact Nat.sqrt_pos.2 (by omega)
    · split at h
      · cases h; exact pure_exact _ _
      · exact product_exact _ _ _ _ (by omega) ho h

/-- what it means that clauses with auxiliary variables from `k` up to `k'` encode a condition on the variables `vars` of the user -/
structure Encodes (vars : List α) (k k' : Nat) (cs : List (Clause α)) (C : (α → Bool) → Prop) : Prop where
  /-- every model of the clauses satisfies the constraint -/
  sound : ∀ w : EV α → Bool, Sat w cs → C (fun a => w (.usr a))
  /-- every assignment satisfying the constraint, together with any values of the other auxiliary variables, extends to a model -/
  complete : ∀ (v : α → Bool) (g : Nat → Bool), C v → ∃ w : EV α → Bool, (∀ a, w (.usr a) = v a) ∧ (∀ n, ¬(k ≤ n ∧ n < k') → w (.aux n) = g n) ∧ Sat w cs
  /-- only variables of the constraint and new auxiliary variables occur -/
  vars : ∀ c ∈ cs, ∀ l ∈ c, (∃ a ∈ vars, l.var = .usr a) ∨ ∃ n, l.var = .aux n ∧ k ≤ n ∧ n < k'

theorem Exact.encodes {vars : List α} {k k' : Nat} {cs : List (Clause α)} {C : (EV α → Bool) → Prop} {D : (α → Bool) → Prop}
    (E : Exact k k' (usrs vars) cs C) (h : ∀ w, C w ↔ D (fun a => w (.usr a))) : Encodes vars k k' cs D where
  sound := fun w hw => (h w).1 (E.sound w hw)
  complete := by
    intro v g hv
    obtain ⟨w, hoff, hs⟩ := E.complete (fun | .usr a => v a | .aux n => g n) ((h _).2 hv)
    refine ⟨w, fun a => ?_, fun n hn => ?_, hs⟩
    · rw [hoff _ (by rintro ⟨n, e, _⟩; cases e)]
    · rw [hoff _ (by rintro ⟨m, e, a⟩; cases e; exact hn a)]
  vars := by
    intro c hc l hl
    rcases E.vars c hc l hl with ⟨m, hm, e⟩ | ⟨n, e, h⟩
    · obtain ⟨a, ha, rfl⟩ := List.mem_map.1 hm
      exact .inl ⟨a, ha, e.symm⟩
    · exact .inr ⟨n, e, h⟩

/-- **C12 (at most one).** Whatever encoder is configured: if the encoder returns, its clauses encode exactly that at most one of the variables is
true, with fresh auxiliary variables only. -/
theorem C12_amo {cfg : AmoCfg} {fuel k : Nat} {vars : List α} {r : List (Clause α) × Nat} (h : amo cfg fuel k (usrs vars) = some r) :
    Encodes vars k r.2 r.1 (fun v => vars.countP v ≤ 1) :=
  (amo_exact usrs_old h).encodes fun w => by rw [cnt_usrs]

/-- **C12 (exactly one).** -/
theorem C12_exo {cfg : AmoCfg} {fuel k : Nat} {vars : List α} {r : List (Clause α) × Nat} (h : exo cfg fuel k (usrs vars) = some r) :
    Encodes vars k r.2 r.1 (fun v => vars.countP v = 1) := by
  suffices E : Exact k r.2 (usrs vars) r.1 (fun v => cnt v (usrs vars) = 1) from E.encodes fun w => by rw [cnt_usrs]
  unfold exo at h
  split at h
  · rename_i hn
    cases h
    have : usrs vars = [] := List.length_eq_zero_iff.1 hn
    exact .direct (by simp) fun v => by simp [this]
  · split at h
    · rename_i hn
      cases h
      obtain ⟨l, hl⟩ : ∃ l, usrs vars = [l] := List.length_eq_one_iff.1 hn
      rw [hl]
      exact .direct (by simp) fun v => by simp [cnt_cons]
    · cases ha : amo cfg fuel k (usrs vars) with
      | none => simp [ha] at h
      | some r' =>
        simp only [ha, Option.some.injEq] at h
        subst h
        have E := amo_exact usrs_old ha
        refine ⟨E.le, ?_, ?_, ?_⟩
        · intro c hc l hl
          rcases List.mem_append.1 hc with hc | hc
          · exact E.vars c hc l hl
          · rw [List.mem_singleton.1 hc] at hl
            exact .inl ⟨l, hl, rfl⟩
        · intro w hw
          simp only [sat_append, sat_cons, sat_nil, and_true] at hw
          have := E.sound w hw.1
          have := cnt_pos.2 hw.2
          omega
        · intro v hv
          obtain ⟨w, hoff, hs⟩ := E.complete v (by omega)
          refine ⟨w, hoff, ?_⟩
          simp only [sat_append, sat_cons, sat_nil, and_true]
          refine ⟨hs, cnt_pos.1 ?_⟩
          rw [cnt_congr fun l hl => hoff _ ((usrs_old l hl).not_new (Nat.le_refl _))]
          omega

/-- the configuration values for which the recursive encoders end -/
def AmoCfg.ok (cfg : AmoCfg) : Prop :=
  (cfg.productBound = 0 ∨ 2 ≤ cfg.productBound) ∧ (cfg.nestedSize = 0 ∨ 3 ≤ cfg.nestedSize) ∧ cfg.commanderSize ≠ 1

/-- **C12 (termination).** For the default values (zero) and for all sufficiently large ones the encoders end; the depth of the recursion is
bounded by the number of variables. -/
theorem C12_terminates {cfg : AmoCfg} (hc : cfg.ok) (k : Nat) (vars : List α) : ∃ r, amo cfg (vars.length + 1) k (usrs vars) = some r := by
  obtain ⟨h1, h2, h3⟩ := hc
  have hl : (usrs vars).length = vars.length := by simp [usrs]
  unfold amo
  split
  · exact ⟨_, rfl⟩
  · have hp : ∃ r, product (productBound cfg.productBound) (vars.length + 1) k (usrs vars) = some r :=
      product_terminates (by unfold productBound; split <;> omega) _ _ _ (by omega) (by omega)
    cases cfg.enc <;> simp only
    · exact ⟨_, rfl⟩
    · exact ⟨_, rfl⟩
    · exact hp
    · exact nested_terminates (by unfold nestedSize; split <;> omega) _ _ _ (by omega)
    · exact commander_terminates (by unfold commanderSize; split <;> omega) _ _ _ _ (by omega)
    · exact ⟨_, rfl⟩
    · exact ⟨_, rfl⟩
    · split
      · exact ⟨_, rfl⟩
      · exact hp

/-- **C12 (counterexamples).** For other configured values the recursion never ends: product with bound one on two variables, nested with groups of
two on three variables, commander with groups of one on any two variables. -/
theorem C12_diverges :
    (∀ (cfg : AmoCfg) (fuel k : Nat) (a b : α), cfg.enc = .product → cfg.productBound = 1 → amo cfg fuel k (usrs [a, b]) = none) ∧
    (∀ (cfg : AmoCfg) (fuel k : Nat) (a b c : α), cfg.enc = .nested → cfg.nestedSize = 2 → amo cfg fuel k (usrs [a, b, c]) = none) ∧
    (∀ (cfg : AmoCfg) (fuel k : Nat) (vars : List α), cfg.enc = .commander → cfg.commanderSize = 1 → 2 ≤ vars.length →
      amo cfg fuel k (usrs vars) = none) := by
  refine ⟨?_, ?_, ?_⟩
  · intro cfg fuel k a b he hb
    simp only [amo, he, hb]
    rw [if_neg (by simp [usrs])]
    exact product_diverges _ _ _ (by simp [usrs])
  · intro cfg fuel k a b c he hb
    simp only [amo, he, hb]
    rw [if_neg (by simp [usrs])]
    exact nested_diverges _ _ _ (by simp [usrs])
  · intro cfg fuel k vars he hb hv
    simp only [amo, he, hb]
    rw [if_neg (by simp [usrs]; omega)]
    exact commander_diverges _ _ _ _ (by simpa [usrs] using hv)

/-! concrete cases: every encoder returns clauses for seven variables -/
def cfgOf (e : AmoEnc) : AmoCfg := ⟨e, 2, 3, 2, .fixed, 3⟩
example : (amo (cfgOf .product) 8 0 (usrs [0, 1, 2, 3, 4, 5, 6])).map (fun r => (r.1.length, r.2)) = some (30, 14) := by decide +kernel
example : (amo (cfgOf .nested) 8 0 (usrs [0, 1, 2, 3, 4, 5, 6])).isSome := by decide +kernel
example : (amo (cfgOf .commander) 8 0 (usrs [0, 1, 2, 3, 4, 5, 6])).isSome := by decide +kernel
example : (amo (cfgOf .binary) 8 0 (usrs [0, 1, 2, 3, 4, 5, 6])).map (fun r => (r.1.length, r.2)) = some (20, 3) := by decide +kernel
example : (amo (cfgOf .bimander) 8 0 (usrs [0, 1, 2, 3, 4, 5, 6])).isSome := by decide +kernel
example : (exo (cfgOf .ladder) 8 0 (usrs [0, 1, 2, 3, 4, 5, 6])).isSome := by decide +kernel
example : (cfgOf .best).ok := by simp [AmoCfg.ok, cfgOf]

end Verif.Enc
