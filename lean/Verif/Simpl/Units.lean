import Verif.Sat.Props
import Verif.Factory.Tree
import Verif.Spec.NormalForm
/-!
# Unit propagation

`/repo/sat/unit_propagator.go` on the core solver, and `/repo/simplification/unit_propagation.go`.
-/
namespace Verif.Simpl
open Verif Verif.Tree
variable {β : Type} [DecidableEq β] [Inhabited β]

/-! ## model -/

/-- unit_propagator.go:73-95 `generateClauseVector`: solver literals, and the names of the variables of the solver afterwards (`name2idx`, `idx2name`) -/
def vec (ns : List β) : List (Lit β) → List Nat × List β
  | [] => ([], ns)
  | l :: ls => match ns.findIdx? (fun x => decide (x = l.var)) with
    | some i => ((if l.pos then 2 * i else (2 * i) ^^^ 1) :: (vec ns ls).1, (vec ns ls).2)
    | none => ((if l.pos then 2 * ns.length else (2 * ns.length) ^^^ 1) :: (vec (ns ++ [l.var]) ls).1, (vec (ns ++ [l.var]) ls).2)

/-- the literals of a clause; none for `$false` -/
def clauseLits : Fm β → List (Lit β)
  | .lit l => [l]
  | .or fs => fs.filterMap fun | .lit l => some l | _ => none
  | _ => []

/-- unit_propagator.go:25-40 `Add`: the clauses; `srt` is the order of the set `f.Literals` -/
def unitClauses (srt : List (Lit β) → List (Lit β)) : Fm β → List (List (Lit β))
  | .tru => []
  | .and fs => fs.map fun f => srt (clauseLits f)
  | f => [srt (clauseLits f)]

/-- unit_propagator.go:25-40: the calls of the core solver, and the names -/
def unitOps (ns : List β) : List (List (Lit β)) → List Sat.Op × List β
  | [] => ([], ns)
  | c :: cs => (List.replicate ((vec ns c).2.length - ns.length) .newVar ++ .add (vec ns c).1 :: (unitOps (vec ns c).2 cs).1, (unitOps (vec ns c).2 cs).2)

/-- unit_propagator.go:69-71 `solverLiteralToFormula` (an index without name gives the zero value of a map) -/
def unitLit (ns : List β) (l : Nat) : Lit β := ⟨ns.getD (l / 2) default, decide (l % 2 = 0)⟩

/-- unit_propagator.go:55-67 `clauseToFormula`: the undefined literals, `none` if a literal is true -/
def residue (s : Sat.S) : List Nat → Option (List Nat)
  | [] => some []
  | l :: ls => match s.value l with
    | some true => none
    | none => (residue s ls).map (l :: ·)
    | some false => residue s ls

def clauseFm (cons : Bool) (ns : List β) (s : Sat.S) (c : List Nat) : Fm β := match residue s c with
  | none => .tru
  | some ls => tOr cons (ls.map fun l => .lit (unitLit ns l))

/-- unit_propagator.go:43-53 `PropagateFormula`; `none`: the fuel does not suffice -/
def propagateFormula (cons : Bool) (fuel : Nat) (ns : List β) (s : Sat.S) : Option (Fm β) :=
  if s.ok = false then some .fls
  else match Sat.propagate fuel s with
    | none => none
    | some (_, some _) => some .fls
    | some (s, none) => some (tAnd cons (s.clauses.map (fun c => clauseFm cons ns s (s.cls c).lits) ++ s.trail.reverse.map fun l => .lit (unitLit ns l)))

/-- unit_propagation.go:15-25 `PropagateUnits` on the CNF of the formula (without the cache) -/
def propagateUnits (cons : Bool) (srt : List (Lit β) → List (Lit β)) (fuel : Nat) (cnf : Fm β) : Option (Fm β) :=
  match Sat.W.run fuel {} (unitOps [] (unitClauses srt cnf)).1 with
  | none => none
  | some w => propagateFormula cons fuel (unitOps [] (unitClauses srt cnf)).2 w.s

/-! ## proofs -/

/-- the assignment of the solver variables -/
def uOf (ns : List β) (v : β → Bool) : Nat → Bool := fun i => v (ns.getD i default)

theorem lv_uOf (ns : List β) (v : β → Bool) (l : Nat) : Sat.lv (uOf ns v) l = (unitLit ns l).eval v := by
  unfold Sat.lv uOf unitLit Lit.eval
  split <;> simp_all

theorem lv_code (u : Nat → Bool) (i : Nat) (p : Bool) : Sat.lv u (if p then 2 * i else (2 * i) ^^^ 1) = if p then u i else !u i := by
  have h : (2 * i) ^^^ 1 = 2 * i + 1 := by
    have := Sat.neg_eq (2 * i)
    unfold Sat.neg at this
    rw [this, if_pos (by omega)]
  cases p
  · simp only [Bool.false_eq_true, if_false, h, Sat.lv]
    rw [if_neg (by omega)]
    congr 2; omega
  · simp only [if_true, Sat.lv]
    rw [if_pos (by omega)]
    congr 1; omega

theorem getD_prefix {ns ms : List β} (h : ns <+: ms) {i : Nat} {x : β} (hi : ns[i]? = some x) : ms.getD i default = x := by
  obtain ⟨t, rfl⟩ := h
  rw [List.getD_eq_getElem?_getD, List.getElem?_append_left (List.getElem?_eq_some_iff.1 hi).1, hi]
  rfl

theorem vec_spec (v : β → Bool) : ∀ (ls : List (Lit β)) (ns : List β), ns <+: (vec ns ls).2 ∧ ∀ ms, (vec ns ls).2 <+: ms → ((vec ns ls).1.map (Sat.lv (uOf ms v)) = ls.map (Lit.eval v))
  | [], ns => ⟨List.prefix_rfl, fun _ _ => rfl⟩
  | l :: ls, ns => by
    unfold vec
    split
    · rename_i i hi
      obtain ⟨h1, h2⟩ := vec_spec v ls ns
      refine ⟨h1, fun ms hm => ?_⟩
      simp only [List.map_cons, h2 ms hm, lv_code]
      obtain ⟨hlt, hd, _⟩ := List.findIdx?_eq_some_iff_getElem.1 hi
      have : ms.getD i default = l.var := getD_prefix (h1.trans hm) (by rw [List.getElem?_eq_getElem hlt, of_decide_eq_true hd])
      unfold uOf Lit.eval
      rw [this]
    · obtain ⟨h1, h2⟩ := vec_spec v ls (ns ++ [l.var])
      refine ⟨(List.prefix_append _ _).trans h1, fun ms hm => ?_⟩
      simp only [List.map_cons, h2 ms hm, lv_code]
      have : ms.getD ns.length default = l.var := getD_prefix (h1.trans hm) (by simp)
      unfold uOf Lit.eval
      rw [this]

theorem sat_map {u : Nat → Bool} {xs : List Nat} {v : β → Bool} {ls : List (Lit β)} (h : xs.map (Sat.lv u) = ls.map (Lit.eval v)) : Sat.Sat u xs ↔ ls.any (Lit.eval v) = true := by
  have e : xs.any (Sat.lv u) = ls.any (Lit.eval v) := by
    have := congrArg (fun bs : List Bool => bs.any id) h
    simpa [List.any_map] using this
  rw [← e, List.any_eq_true]
  rfl

theorem foldl_newVar (n : Nat) (a : Sat.A) : (List.replicate n Sat.Op.newVar).foldl Sat.A.step a = a := by
  induction n with
  | zero => rfl
  | succ n ih => simpa [List.replicate_succ, Sat.A.step] using ih

theorem unitOps_spec (v : β → Bool) : ∀ (cs : List (List (Lit β))) (ns : List β) (a : Sat.A), ns <+: (unitOps ns cs).2 ∧ (∀ o ∈ (unitOps ns cs).1, o.Calm false) ∧
    ∀ ms, (unitOps ns cs).2 <+: ms → (Sat.Models ((unitOps ns cs).1.foldl Sat.A.step a).cur (uOf ms v) ↔ Sat.Models a.cur (uOf ms v) ∧ ∀ c ∈ cs, c.any (Lit.eval v) = true)
  | [], ns, a => ⟨List.prefix_rfl, by simp [unitOps], fun ms _ => by simp [unitOps]⟩
  | c :: cs, ns, a => by
    obtain ⟨h1, h2⟩ := vec_spec v c ns
    obtain ⟨h3, h4, h5⟩ := unitOps_spec v cs (vec ns c).2 (a.step (.add (vec ns c).1))
    refine ⟨h1.trans h3, ?_, fun ms hm => ?_⟩
    · intro o ho
      simp only [unitOps, List.mem_append, List.mem_cons, List.mem_replicate] at ho
      rcases ho with ⟨_, rfl⟩ | rfl | ho
      · exact trivial
      · exact trivial
      · exact h4 o ho
    · simp only [unitOps, List.foldl_append, List.foldl_cons, foldl_newVar]
      rw [h5 ms hm]
      show Sat.Models (a.cur ++ [_]) _ ∧ _ ↔ _
      rw [← Sat.models_append, sat_map (h2 ms (h3.trans hm))]
      simp [and_assoc]

theorem residue_spec {s : Sat.S} {u : Nat → Bool} (h : ∀ l, s.value l = some true → Sat.lv u l = true) : ∀ ls : List Nat, match residue s ls with
    | none => Sat.Sat u ls
    | some rs => Sat.Sat u rs ↔ Sat.Sat u ls
  | [] => Iff.rfl
  | l :: ls => by
    have ih := residue_spec h ls
    have cons : ∀ xs : List Nat, Sat.Sat u (l :: xs) ↔ Sat.lv u l = true ∨ Sat.Sat u xs := fun xs => by simp [Sat.Sat]
    unfold residue
    cases hv : s.value l with
    | none =>
      dsimp only
      cases hr : residue s ls with
      | none => rw [hr] at ih; exact (cons ls).2 (.inr ih)
      | some rs => rw [hr] at ih; have ih : Sat.Sat u rs ↔ Sat.Sat u ls := ih; simp only [Option.map_some]; rw [cons, cons, ih]
    | some b =>
      cases b with
      | true => exact (cons ls).2 (.inl (h l hv))
      | false =>
        have : Sat.lv u l = false := by
          have := h _ ((Sat.value_false s l).1 hv)
          rw [Sat.lv_neg] at this
          simpa using this
        dsimp only
        cases hr : residue s ls with
        | none => rw [hr] at ih; exact (cons ls).2 (.inr ih)
        | some rs => rw [hr] at ih; have ih : Sat.Sat u rs ↔ Sat.Sat u ls := ih; simp only; rw [cons, ih]; simp [this]

theorem eval_clauseFm {s : Sat.S} (cons : Bool) (ns : List β) (v : β → Bool) (h : ∀ l, s.value l = some true → Sat.lv (uOf ns v) l = true) (c : List Nat) :
    (clauseFm cons ns s c).eval v = true ↔ Sat.Sat (uOf ns v) c := by
  have h1 := residue_spec h c
  unfold clauseFm
  cases hr : residue s c with
  | none => rw [hr] at h1; simp only [Fm.eval_tru, true_iff]; exact h1
  | some rs =>
    rw [hr] at h1
    have h1 : Sat.Sat (uOf ns v) rs ↔ Sat.Sat (uOf ns v) c := h1
    rw [← h1]
    simp only [eval_tOr, List.any_map, List.any_eq_true, Function.comp_def, Fm.eval_lit, ← lv_uOf]
    rfl

theorem eval_propagateFormula {Φ : (Nat → Bool) → Prop} {s : Sat.S} (hs : Sat.RS Φ s) (hna : s.ams = []) {cons : Bool} {fuel : Nat} {ns : List β} {g : Fm β} (h : propagateFormula cons fuel ns s = some g)
    (v : β → Bool) : g.eval v = true ↔ Φ (uOf ns v) := by
  unfold propagateFormula at h
  split at h
  · rename_i hok
    cases h
    simpa using hs.dead hok _
  rename_i hok
  have hok : s.ok = true := by simpa using hok
  obtain ⟨h1, h2, h3, h4⟩ := hs.run hok
  split at h
  · cases h
  · rename_i s' c e
    cases h
    obtain ⟨fr, hc⟩ := Sat.propagate_spec fuel s s' (some c) h1 e
    have hd : s'.dl = 0 := by have := hs.dl0; unfold Sat.S.dl at *; rw [fr.trailLim]; exact this
    simpa using hc.unsat hd _
  · rename_i s' e
    cases h
    obtain ⟨fr, hp, hq⟩ := Sat.propagate_spec fuel s s' none h1 e
    have hd : s'.dl = 0 := by have := hs.dl0; unfold Sat.S.dl at *; rw [fr.trailLim]; exact this
    have hlev : ∀ l ∈ s'.trail, s'.level (l / 2) = 0 := fun l hl => by have := hp.t.lev_le hl; omega
    simp only [eval_tAnd, List.all_append, List.all_map, Bool.and_eq_true, List.all_eq_true, Function.comp_apply, List.mem_reverse, Fm.eval_lit, ← lv_uOf]
    constructor
    · rintro ⟨ha, hb⟩
      have ht : ∀ l, s'.value l = some true → Sat.lv (uOf ns v) l = true := fun l hl => hb l ((hp.t.tval l).1 hl)
      refine h4 _ ⟨fun c hc => ?_, fun l hl => hb l (fr.trail.subset (h3 l hl)), fun c hc => (by rw [hna] at hc; cases hc)⟩
      obtain ⟨x, hx, hxv⟩ := (eval_clauseFm cons ns v ht _).1 (ha c (by rw [fr.clauses]; exact hc))
      exact ⟨x, (fr.lits c).mem_iff.1 hx, hxv⟩
    · intro hu
      have ht : ∀ l ∈ s'.trail, Sat.lv (uOf ns v) l = true := fun l hl => hp.m.imp0 l hl (hlev l hl) _ hu
      refine ⟨fun c hc => (eval_clauseFm cons ns v (fun l hl => ht l ((hp.t.tval l).1 hl)) _).2 (hp.m.db c (List.mem_append_left _ hc) _ hu), ht⟩

/-- the clauses of a CNF -/
theorem unitClauses_eval {srt : List (Lit β) → List (Lit β)} (hsrt : ∀ ls l, l ∈ srt ls ↔ l ∈ ls) {F : Fm β} (hF : Spec.isCNF F = true) (v : β → Bool) :
    (∀ c ∈ unitClauses srt F, c.any (Lit.eval v) = true) ↔ F.eval v = true := by
  have hcl : ∀ g : Fm β, Spec.isClause g = true → ((srt (clauseLits g)).any (Lit.eval v) = true ↔ g.eval v = true) := by
    intro g hg
    rw [List.any_eq_true]
    simp only [hsrt]
    cases g with
    | lit l => simp [clauseLits]
    | or fs =>
      simp only [Spec.isClause, List.all_eq_true] at hg
      simp only [clauseLits, List.mem_filterMap, Fm.eval_or, List.any_eq_true]
      constructor
      · rintro ⟨l, ⟨g, hg', e⟩, hl⟩
        refine ⟨g, hg', ?_⟩
        have := hg g hg'
        cases g with
        | lit l' => cases e; simpa using hl
        | _ => cases this
      · rintro ⟨g, hg', hv⟩
        have := hg g hg'
        cases g with
        | lit l' => exact ⟨l', ⟨_, hg', rfl⟩, by simpa using hv⟩
        | _ => cases this
    | _ => cases hg
  cases F with
  | tru => simp [unitClauses]
  | fls =>
    simp only [unitClauses, clauseLits, List.mem_singleton, forall_eq, List.any_eq_true, hsrt]
    simp
  | and fs =>
    simp only [Spec.isCNF, List.all_eq_true] at hF
    simp only [unitClauses, List.mem_map, Fm.eval_and, List.all_eq_true]
    constructor
    · intro h g hg
      exact (hcl g (hF g hg)).1 (h _ ⟨g, hg, rfl⟩)
    · rintro h c ⟨g, hg, rfl⟩
      exact (hcl g (hF g hg)).2 (h g hg)
  | lit l => simpa [unitClauses] using hcl (.lit l) hF
  | or fs => simpa [unitClauses] using hcl (.or fs) hF
  | _ => cases hF

/-- C36: unit propagation returns a formula equivalent to the CNF it was given -/
theorem C36_units_cnf {cons : Bool} {srt : List (Lit β) → List (Lit β)} (hsrt : ∀ ls l, l ∈ srt ls ↔ l ∈ ls) {fuel : Nat} {F g : Fm β} (hF : Spec.isCNF F = true)
    (h : propagateUnits cons srt fuel F = some g) : Fm.Equivalent g F := by
  intro v
  unfold propagateUnits at h
  split at h
  · cases h
  rename_i w hw
  obtain ⟨_, h2, h3⟩ := unitOps_spec v (unitClauses srt F) [] {}
  have hi := Sat.run_spec Sat.inv_init h2 hw
  have h5 := eval_propagateFormula hi.rs (hi.noam rfl) h v
  rw [h3 _ List.prefix_rfl, unitClauses_eval hsrt hF] at h5
  rw [Bool.eq_iff_iff, h5]
  refine ⟨fun h => h.2, fun h => ⟨fun c hc => (by cases hc), h⟩⟩

/-- C36: unit propagation of a formula by way of any of its CNFs, which may use additional variables `A`: the models are those of the formula, up to the additional variables; where there
are none, the result is equivalent -/
theorem C36_units {cons : Bool} {srt : List (Lit β) → List (Lit β)} (hsrt : ∀ ls l, l ∈ srt ls ↔ l ∈ ls) {fuel : Nat} {A : β → Prop} {f F g : Fm β} (hF : Spec.CnfOf A f F)
    (h : propagateUnits cons srt fuel F = some g) :
    (∀ w, g.eval w = true → f.eval w = true) ∧ (∀ v, f.eval v = true → ∃ w, (∀ x, ¬ A x → w x = v x) ∧ g.eval w = true) ∧ ((∀ x, ¬ A x) → Fm.Equivalent g f) := by
  have he := C36_units_cnf hsrt hF.cnf h
  have h1 : ∀ w, g.eval w = true → f.eval w = true := fun w hw => hF.sound w (by rw [← he w]; exact hw)
  have h2 : ∀ v, f.eval v = true → ∃ w, (∀ x, ¬ A x → w x = v x) ∧ g.eval w = true := fun v hv => by
    obtain ⟨w, hw, hT⟩ := hF.extend v hv
    exact ⟨w, hw, by rw [he w]; exact hT⟩
  refine ⟨h1, h2, fun hA v => ?_⟩
  rw [Bool.eq_iff_iff]
  refine ⟨h1 v, fun hv => ?_⟩
  obtain ⟨w, hw, hg⟩ := h2 v hv
  have : w = v := funext fun x => hw x (hA x)
  rwa [this] at hg

/-! ## examples -/

/-- the formula of the documentation, `(A | C) & ~C & (B | C) & (A | ~C)`, becomes `~C & A & B` -/
example : propagateUnits false id 20 (.and [.or [.lit ⟨"A", true⟩, .lit ⟨"C", true⟩], .lit ⟨"C", false⟩, .or [.lit ⟨"B", true⟩, .lit ⟨"C", true⟩], .or [.lit ⟨"A", true⟩, .lit ⟨"C", false⟩]]) =
    some (.and [.lit ⟨"C", false⟩, .lit ⟨"A", true⟩, .lit ⟨"B", true⟩]) := by decide +kernel
/-- a clause that remains, and one that gets shorter -/
example : propagateUnits false id 20 (.and [.or [.lit ⟨"A", true⟩, .lit ⟨"C", true⟩, .lit ⟨"D", false⟩], .or [.lit ⟨"A", true⟩, .lit ⟨"D", false⟩], .lit ⟨"C", false⟩]) =
    some (.and [.or [.lit ⟨"A", true⟩, .lit ⟨"D", false⟩], .lit ⟨"C", false⟩]) := by decide +kernel
/-- a contradiction -/
example : propagateUnits false id 20 (.and [.or [.lit ⟨"A", true⟩, .lit ⟨"C", true⟩], .lit ⟨"C", false⟩, .lit ⟨"A", false⟩]) = some (.fls : Fm String) := by decide +kernel

end Verif.Simpl
