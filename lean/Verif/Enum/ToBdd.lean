import Verif.Enum.Termination
import Verif.Bdd.Props
import Verif.Factory.Tree
/-!
# Enumeration into a BDD (C62)

Model of /repo/model/enum/enumeration_bdd.go: the iteration of C27 with a collector that adds each committed model to a BDD, on the kernel of C23 and C24.
-/
namespace Verif.Enum
open Verif Verif.Tree
variable {α : Type} [DecidableEq α]

/-! ## model -/

/-- enumeration_bdd.go:73-95 `generateModelCollector`, 97-108 `AddModel`, 110-133: models are collected as in enumeration.go, but variables that the solver does not
know are left out. There are no additional variables (enumeration_bdd.go:61). -/
def bddColl : Coll α := newColl [] []

/-- the handler of the compilation (`NopHandler`) -/
def nop : Unit → Bool × Unit := fun _ => (true, ())

/-- enumeration_bdd.go:82, 110-115: the calls on the kernel. The first is the false BDD; the call `2 * i + 2` is the disjunction of the BDD so far and the `i`-th model. -/
def bddOps : List (List (Lit α)) → Nat → List (Bdd.Op α Unit)
  | [], _ => []
  | m :: ms, i => .compile (tMinterm m) () :: .apply .or i (i + 1) :: bddOps ms (i + 2)

/-- the last BDD -/
def lastBdd (P : Bdd.Par) (sz : Nat → Nat) (order : List α) (ms : List (List (Lit α))) : Option (Bdd.W α × Nat) :=
  (Bdd.runNew P nop id order.length (sz order.length) order (.compile .fls () :: bddOps ms 0)).bind fun st => (st.handle (2 * ms.length)).map fun a => (st.w, a)

/-- enumeration_bdd.go:51-64 `ToBddOnSolverWithConfig` and iteration.go:46-62 `Iterate`: success, kernel and index of the BDD. `sz` is the size of the table of a kernel
with the given number of variables. `none`: a panic, or not finished within `F`, `k`. -/
def toBdd (P : Bdd.Par) (sz : Nat → Nat) (g : Cfg α) (F k : Nat) (vars : List α) (s : St α) : Option (Bool × Bdd.W α × Nat) :=
  if g.go 0 then
    match iterRec g F vars [] k [] (g.split vars s 0) 0 s bddColl 1 with
    | none => none
    | some (ok, _, c, _) => (lastBdd P sz vars c.com).map fun r => (ok, r)
  else (lastBdd P sz [] []).map fun r => (false, r)

/-! ## the iteration does not depend on the variables unknown to the solver -/

/-- the collectors of enumeration.go and enumeration_bdd.go -/
structure CR (B : List (List (Lit α))) (c c' : Coll α) : Prop where
  unc : c.unc = c'.unc
  neg : c.neg = c'.neg
  base : c.base = B
  base' : c'.base = [[]]
  com : ∀ M, M ∈ c.com ↔ ∃ b ∈ B, ∃ m ∈ c'.com, M = b ++ m

theorem CR.addModel {B : List (List (Lit α))} {c c' : Coll α} (h : CR B c c') (m : List (Lit α)) : CR B (c.addModel m) (c'.addModel m) :=
  ⟨by simp [Coll.addModel, h.unc, h.neg], h.neg, h.base, h.base', h.com⟩

theorem CR.rollback {B : List (List (Lit α))} {c c' : Coll α} (h : CR B c c') : CR B c.rollback c'.rollback :=
  ⟨rfl, h.neg, h.base, h.base', h.com⟩

theorem CR.commit {B : List (List (Lit α))} {c c' : Coll α} (h : CR B c c') : CR B c.commit c'.commit := by
  refine ⟨rfl, h.neg, h.base, h.base', fun M => ?_⟩
  simp only [Coll.commit, h.base, h.base', h.unc, List.mem_append, List.mem_flatMap, List.mem_map, List.mem_singleton, h.com]
  constructor
  · rintro (⟨b, hb, m, hm, rfl⟩ | ⟨b, hb, m, hm, rfl⟩)
    · exact ⟨b, hb, m, .inl hm, rfl⟩
    · exact ⟨b, hb, m, .inr ⟨[], rfl, m, hm, rfl⟩, rfl⟩
  · rintro ⟨b, hb, m, hm | ⟨_, rfl, m, hm, rfl⟩, rfl⟩
    · exact .inl ⟨b, hb, m, hm, rfl⟩
    · exact .inr ⟨b, hb, m, hm, rfl⟩

/-- the same results with related collectors -/
def RelO {β : Type} (B : List (List (Lit α))) (r r' : Option (β × Coll α × Nat)) : Prop :=
  (r = none ∧ r' = none) ∨ ∃ x c c' n, r = some (x, c, n) ∧ r' = some (x, c', n) ∧ CR B c c'

/-- `RelO` for results with two leading components -/
def RelP {β γ : Type} (B : List (List (Lit α))) (r r' : Option (β × γ × Coll α × Nat)) : Prop :=
  (r = none ∧ r' = none) ∨ ∃ x y c c' n, r = some (x, y, c, n) ∧ r' = some (x, y, c', n) ∧ CR B c c'

theorem RelP.mk {β γ : Type} {B : List (List (Lit α))} {c c' : Coll α} (h : CR B c c') (x : β) (y : γ) (n : Nat) : RelP B (some (x, y, c, n)) (some (x, y, c', n)) :=
  .inr ⟨x, y, c, c', n, rfl, rfl, h⟩
theorem RelO.mk {β : Type} {B : List (List (Lit α))} {c c' : Coll α} (h : CR B c c') (x : β) (n : Nat) : RelO B (some (x, c, n)) (some (x, c', n)) :=
  .inr ⟨x, c, c', n, rfl, rfl, h⟩

theorem iterLoop_rel {B : List (List (Lit α))} (g : Cfg α) (kn rel all : List α) (max : Nat) : ∀ (F found : Nat) (fs : List (Fm α)) {c c' : Coll α} (n : Nat), CR B c c' →
    RelP B (iterLoop g kn rel all max F found fs c n) (iterLoop g kn rel all max F found fs c' n)
  | 0, _, _, _, _, _, _ => .inl ⟨rfl, rfl⟩
  | F + 1, found, fs, c, c', n, h => by
    unfold iterLoop
    split
    · split
      · exact .mk h _ _ _
      · split
        · split
          · exact .mk (h.addModel _) _ _ _
          · exact iterLoop_rel g kn rel all max F _ _ _ (h.addModel _)
        · exact .mk (h.addModel _) _ _ _
    · exact .mk h _ _ _

theorem splitLoop_rel {B : List (List (Lit α))} (g : Cfg α) (F : Nat) (s : St α) (d : Nat) : ∀ (k : Nat) (sv : List α) {c c' : Coll α} (n : Nat), CR B c c' →
    RelO B (splitLoop g F s d k sv c n) (splitLoop g F s d k sv c' n)
  | 0, _, _, _, _, _ => .inl ⟨rfl, rfl⟩
  | k + 1, sv, c, c', n, h => by
    unfold splitLoop
    rcases iterLoop_rel g s.kn (sv.filter (· ∈ s.kn)) (sv.filter (· ∈ s.kn) ++ (([] : List α).filter (· ∉ sv)).filter (· ∈ s.kn)) (g.maxSplit d) F 0 s.fs n h with
      ⟨e1, e2⟩ | ⟨x, y, d1, d2, m, e1, e2, h1⟩
    · rw [show iterate g F s sv [] (g.maxSplit d) c n = none from e1, show iterate g F s sv [] (g.maxSplit d) c' n = none from e2]
      exact .inl ⟨rfl, rfl⟩
    · rw [show iterate g F s sv [] (g.maxSplit d) c n = _ from e1, show iterate g F s sv [] (g.maxSplit d) c' n = _ from e2]
      cases y with
      | false => exact .mk h1.rollback _ _
      | true =>
        cases x with
        | true => exact .mk h1 _ _
        | false =>
          dsimp only
          split
          · exact splitLoop_rel g F s d k _ _ h1.rollback
          · exact .mk h1.rollback _ _

theorem recLoop_rel {B : List (List (Lit α))} (g : Cfg α) {rec : List (Lit α) → St α → Coll α → Nat → Option (Bool × St α × Coll α × Nat)}
    (hrec : ∀ a s c c' n, CR B c c' → RelP B (rec a s c n) (rec a s c' n)) (sm : List (Lit α)) : ∀ (as : List (List (Lit α))) (s : St α) {c c' : Coll α} (n : Nat), CR B c c' →
    RelP B (recLoop g rec sm as s c n) (recLoop g rec sm as s c' n)
  | [], _, _, _, _, h => .mk h _ _ _
  | a :: as, s, c, c', n, h => by
    unfold recLoop
    rcases hrec (a ++ sm) s c c' n h with ⟨e1, e2⟩ | ⟨x, y, d1, d2, m, e1, e2, h1⟩
    · rw [e1, e2]; exact .inl ⟨rfl, rfl⟩
    · rw [e1, e2]
      dsimp only
      split
      · exact recLoop_rel g hrec sm as _ _ h1.commit
      · exact .mk h1.commit _ _ _

theorem iterRec_rel {B : List (List (Lit α))} (g : Cfg α) (F : Nat) (vars add : List α) : ∀ (k : Nat) (sm : List (Lit α)) (sv : List α) (d : Nat) (s : St α) {c c' : Coll α} (n : Nat), CR B c c' →
    RelP B (iterRec g F vars add k sm sv d s c n) (iterRec g F vars add k sm sv d s c' n)
  | 0, _, _, _, _, _, _, _, _ => .inl ⟨rfl, rfl⟩
  | k + 1, sm, sv, d, s, c, c', n, h => by
    unfold iterRec
    dsimp only
    rcases iterLoop_rel g (s.add sm).kn (vars.filter (· ∈ (s.add sm).kn)) (vars.filter (· ∈ (s.add sm).kn) ++ (add.filter (· ∉ vars)).filter (· ∈ (s.add sm).kn)) (g.maxIter d) F 0
      (s.add sm).fs n h with ⟨e1, e2⟩ | ⟨x, y, d1, d2, m, e1, e2, h1⟩
    · rw [show iterate g F (s.add sm) vars add (g.maxIter d) c n = none from e1, show iterate g F (s.add sm) vars add (g.maxIter d) c' n = none from e2]
      exact .inl ⟨rfl, rfl⟩
    · rw [show iterate g F (s.add sm) vars add (g.maxIter d) c n = _ from e1, show iterate g F (s.add sm) vars add (g.maxIter d) c' n = _ from e2]
      cases y with
      | false => exact .mk h1.commit _ _ _
      | true =>
        cases x with
        | true => exact .mk h1.commit _ _ _
        | false =>
          dsimp only
          split
          · rcases splitLoop_rel g F (s.add sm) d F sv (m + 1) h1.rollback with ⟨e3, e4⟩ | ⟨x, d3, d4, m2, e3, e4, h2⟩
            · rw [e3, e4]; exact .inl ⟨rfl, rfl⟩
            · rw [e3, e4]
              cases x with
              | none => exact .mk h2 _ _ _
              | some nsv =>
                dsimp only
                split
                · rw [h2.unc]
                  rcases recLoop_rel g (rec := fun a s' c n => iterRec g F vars add k a
                      (g.split ((vars.filter (· ∉ nsv)).filter (· ∉ sm.map (·.var))) (s.add sm) (d + 1)) (d + 1) s' c n)
                      (fun a s' c c' n hc => iterRec_rel g F vars add k _ _ _ _ _ hc) sm d4.unc (s.add sm) (m2 + 1) h2.rollback with
                    ⟨e5, e6⟩ | ⟨x, y, d5, d6, m3, e5, e6, h3⟩
                  · rw [e5, e6]; exact .inl ⟨rfl, rfl⟩
                  · rw [e5, e6]; exact .mk h3 _ _ _
                · exact .mk h2.rollback _ _ _
          · exact .mk h1.rollback _ _ _

/-- the enumeration into a BDD makes the same iteration as the enumeration of C27 -/
theorem run_rel (g : Cfg α) (F k : Nat) (V : List α) (s : St α) (hgo : g.go 0 = true) :
    (run g F k V [] s = none ∧ iterRec g F V [] k [] (g.split V s 0) 0 s bddColl 1 = none) ∨
    ∃ ok s' L cnt c n, run g F k V [] s = some (ok, L, cnt) ∧ iterRec g F V [] k [] (g.split V s 0) 0 s bddColl 1 = some (ok, s', c, n) ∧
      ∀ M, M ∈ L ↔ ∃ b ∈ cartesian (V.filter (· ∉ s.kn)), ∃ m ∈ c.com, M = b ++ m := by
  have h0 : CR (cartesian (V.filter (· ∉ s.kn))) (newColl (V.filter (· ∉ s.kn)) (([] : List α).filter (· ∉ s.kn))) bddColl :=
    ⟨rfl, rfl, rfl, rfl, fun M => by simp [newColl, bddColl]⟩
  unfold run
  rw [if_pos hgo]
  rcases iterRec_rel g F V [] k [] (g.split V s 0) 0 s 1 h0 with ⟨e1, e2⟩ | ⟨x, y, c, c', n, e1, e2, h⟩
  · exact .inl ⟨by rw [e1], e2⟩
  · exact .inr ⟨x, y, c.com, c.cnt, c', n, by rw [e1], e2, h.com⟩

/-! ## the BDD -/

theorem compilable_minterm (m : List (Lit α)) : Bdd.Compilable id (tMinterm m) := by
  unfold tMinterm Bdd.Compilable
  split
  · trivial
  · trivial
  · rename_i h1 h2
    refine ⟨by simpa using h1, ?_⟩
    generalize (fun ψ => Bdd.Ok (fun _ => False) (id ψ) ∧ (∀ v, (id ψ).eval v = ψ.eval v) ∧ ∀ x ∈ (id ψ).vars, x ∈ ψ.vars) = C
    clear h1 h2
    induction m with
    | nil => trivial
    | cons l m ih => exact ⟨trivial, ih⟩

theorem opsOk_snoc {nnf : Fm α → Fm α} {ops : List (Bdd.Op α Unit)} {o : Bdd.Op α Unit} (h : Bdd.OpsOk nnf ops) (ho : Bdd.OpOk nnf ops o) : Bdd.OpsOk nnf (ops ++ [o]) := by
  intro pre o' post e
  rcases List.eq_nil_or_concat post with rfl | ⟨post', x, rfl⟩
  · have := List.append_inj' e (by simp)
    obtain ⟨rfl, e2⟩ := this
    simp only [List.cons.injEq, and_true] at e2
    subst e2; exact ho
  · rw [List.concat_eq_append, ← List.cons_append, ← List.append_assoc] at e
    exact h pre o' post' (List.append_inj' e (by simp)).1

/-- the calls, their functions -/
theorem bddOps_spec : ∀ (ms : List (List (Lit α))) (pre : List (Bdd.Op α Unit)) (_ : Bdd.OpsOk id pre) (gp : (α → Bool) → Bool) (i : Nat), i + 1 = pre.length →
    (∃ o, pre[i]? = some o ∧ o.kept = true) → (Bdd.sems pre).getD i (fun _ => false) = gp →
    Bdd.OpsOk id (pre ++ bddOps ms i) ∧ (pre ++ bddOps ms i).length = i + 1 + 2 * ms.length ∧
    (∃ o, (pre ++ bddOps ms i)[i + 2 * ms.length]? = some o ∧ o.kept = true) ∧
    ∀ v, (Bdd.sems (pre ++ bddOps ms i)).getD (i + 2 * ms.length) (fun _ => false) v = (gp v || ms.any fun m => m.all (Lit.eval v)) := by
  intro ms
  induction ms with
  | nil =>
    intro pre hpre gp i hi ho hg
    simp only [bddOps, List.append_nil, List.length_nil, Nat.mul_zero, Nat.add_zero, List.any_nil, Bool.or_false]
    exact ⟨hpre, hi.symm, ho, fun v => by rw [hg]⟩
  | cons m ms ih =>
    intro pre hpre gp i hi ho hg
    have h1 : Bdd.OpsOk id (pre ++ [.compile (tMinterm m) ()]) :=
      opsOk_snoc hpre ⟨by intro j hj; simp [Bdd.Op.args] at hj, fun φ s e => by cases e; exact compilable_minterm m⟩
    obtain ⟨o, ho1, ho2⟩ := ho
    have h2 : Bdd.OpsOk id (pre ++ [.compile (tMinterm m) ()] ++ [.apply .or i (i + 1)]) := by
      refine opsOk_snoc h1 ⟨?_, fun φ s e => by cases e⟩
      intro j hj
      simp only [Bdd.Op.args, List.mem_cons, List.not_mem_nil, or_false] at hj
      rcases hj with rfl | rfl
      · exact ⟨o, by rw [List.getElem?_append_left (by omega)]; exact ho1, ho2⟩
      · exact ⟨.compile (tMinterm m) (), by rw [List.getElem?_append_right (by omega), hi]; simp, rfl⟩
    have hl : (Bdd.sems pre).length = i + 1 := by rw [Bdd.sems_length, hi]
    have hg2 : (Bdd.sems (pre ++ [.compile (tMinterm m) ()] ++ [.apply .or i (i + 1)])).getD (i + 2) (fun _ => false) = fun v => gp v || m.all (Lit.eval v) := by
      rw [Bdd.sems_snoc, Bdd.sems_snoc]
      funext v
      rw [List.getD_eq_getElem?_getD, List.getElem?_append_right (by simp [hl])]
      simp only [List.length_append, hl, List.length_singleton, Nat.sub_self, List.getElem?_cons_zero, Option.getD_some, Bdd.sem]
      rw [List.getD_eq_getElem?_getD, List.getD_eq_getElem?_getD, List.getElem?_append_left (by omega), List.getElem?_append_right (by omega), hl]
      simp only [Nat.sub_self, List.getElem?_cons_zero, Option.getD_some, eval_tMinterm, Bdd.Bop.f]
      rw [← List.getD_eq_getElem?_getD, hg]
    have := ih _ h2 _ (i + 2) (by simp; omega) ⟨.apply .or i (i + 1), by rw [List.getElem?_append_right (by simp; omega)]; simp [← hi], rfl⟩ hg2
    have e : pre ++ [Bdd.Op.compile (tMinterm m) ()] ++ [Bdd.Op.apply .or i (i + 1)] ++ bddOps ms (i + 2) = pre ++ bddOps (m :: ms) i := by simp [bddOps]
    rw [e] at this
    rw [List.length_cons, show i + 2 * (ms.length + 1) = i + 2 + 2 * ms.length by omega]
    refine ⟨this.1, by rw [this.2.1]; omega, this.2.2.1, fun v => ?_⟩
    rw [this.2.2.2 v, List.any_cons, Bool.or_assoc]

theorem bddOps_vars : ∀ (ms : List (List (Lit α))) (i : Nat), ∀ o ∈ bddOps ms i, ∀ x ∈ o.vars, ∃ m ∈ ms, ∃ l ∈ m, l.var = x
  | [], _, _, h => by cases h
  | m :: ms, i, o, h => by
    intro x hx
    rcases List.mem_cons.1 h with rfl | h
    · refine ⟨m, List.mem_cons_self, ?_⟩
      have hx : x ∈ (tMinterm m).vars := hx
      unfold tMinterm at hx
      split at hx
      · simp [Fm.vars] at hx
      · simp [Fm.vars] at hx; exact ⟨_, List.mem_cons_self, hx.symm⟩
      · simp only [Fm.vars_and, List.mem_flatMap, List.mem_map] at hx
        obtain ⟨_, ⟨l, hl, rfl⟩, hx⟩ := hx
        simp [Fm.vars] at hx
        exact ⟨l, hl, hx.symm⟩
    · rcases List.mem_cons.1 h with rfl | h
      · simp [Bdd.Op.vars] at hx
      · obtain ⟨m', h1, h2⟩ := bddOps_vars ms _ o h x hx
        exact ⟨m', List.mem_cons_of_mem _ h1, h2⟩

/-- the last BDD exists and is the disjunction of the models -/
theorem lastBdd_spec {P : Bdd.Par} (hgr : ∀ s, s < P.grow s) {sz : Nat → Nat} (hsz : ∀ n, 2 ≤ sz n) (order : List α) (ms : List (List (Lit α)))
    (hv : ∀ m ∈ ms, ∀ l ∈ m, l.var ∈ order) :
    ∃ w a, lastBdd P sz order ms = some (w, a) ∧ (∀ v, Bdd.walk w v (order.length + 1) a = some (ms.any fun m => m.all (Lit.eval v))) ∧
      (a = 1 ↔ ∀ v : α → Bool, (ms.any fun m => m.all (Lit.eval v)) = true) ∧ (a = 0 ↔ ∀ v : α → Bool, (ms.any fun m => m.all (Lit.eval v)) = false) := by
  have h0 : Bdd.OpsOk (α := α) (σ := Unit) id [.compile .fls ()] := by
    have : Bdd.OpsOk (α := α) (σ := Unit) id [] := fun pre o post e => by simp at e
    exact opsOk_snoc this ⟨by intro j hj; simp [Bdd.Op.args] at hj, fun φ s e => by cases e; trivial⟩
  obtain ⟨h1, h2, ⟨o, h3, h4⟩, h5⟩ := bddOps_spec ms [.compile .fls ()] h0 (fun _ => false) 0 rfl ⟨_, rfl, rfl⟩ (by funext v; simp [Bdd.sems, Bdd.sem])
  rw [List.singleton_append] at h1 h2 h3 h5
  simp only [Nat.zero_add] at h2 h3 h5
  unfold lastBdd
  rcases Bdd.C24_partial hgr nop id order.length (sz order.length) (hsz _) order _ h1 with ⟨e, hU⟩ | ⟨st, e, hb, hd⟩
  · exfalso
    have := hU order (fun x hx => hx) ?_
    · omega
    · intro o ho x hx
      rcases List.mem_cons.1 ho with rfl | ho
      · simp [Bdd.Op.vars, Fm.vars] at hx
      · obtain ⟨m, hm, l, hl, rfl⟩ := bddOps_vars ms 0 o ho x hx
        exact hv m hm l hl
  · rw [e]
    obtain ⟨a, ha⟩ := hb (fun _ => rfl) _ o h3 (Bdd.Op.kept_isBdd h4)
    obtain ⟨-, -, c1, c2⟩ := Bdd.C23_canonical hgr nop id order.length (sz order.length) (hsz _) order _ h1 e ⟨o, h3, .inl h4⟩ ⟨o, h3, .inl h4⟩ ha ha
    simp only [h5, Bool.false_or, Bdd.isTautology, Bdd.isContradiction, beq_iff_eq] at c1 c2
    refine ⟨st.w, a, ?_, fun v => ?_, c1, c2⟩
    · rw [Option.bind_some, Bdd.handle_some ha]; rfl
    · rw [hd _ a ⟨o, h3, .inl h4⟩ ha v, h5 v, Bool.false_or]

/-! ## C62 -/

/-- the models that the collector gets speak about variables of `V` -/
theorem com_vars {V : List α} {B L : List (List (Lit α))} {com : List (List (Lit α))} (hL : ∀ M, M ∈ L ↔ ∃ b ∈ B, ∃ m ∈ com, M = b ++ m) (hB : B ≠ [])
    (h : ∀ M ∈ L, ∀ l ∈ M, l.var ∈ V) : ∀ m ∈ com, ∀ l ∈ m, l.var ∈ V := by
  intro m hm l hl
  obtain ⟨b, hb⟩ := List.exists_mem_of_ne_nil _ hB
  exact h (b ++ m) ((hL _).2 ⟨b, hb, m, hm, rfl⟩) l (List.mem_append_right _ hl)

theorem cartesian_ne (xs : List α) : cartesian xs ≠ [] := by
  intro e
  have := cartesian_mem xs fun _ => true
  rw [e] at this; cases this

theorem any_sound {V D : List α} {fs : List (Fm α)} {L com : List (List (Lit α))} (hL : ∀ M, M ∈ L ↔ ∃ b ∈ cartesian D, ∃ m ∈ com, M = b ++ m) (hs : Sound V [] fs L)
    {v : α → Bool} (h : (com.any fun m => m.all (Lit.eval v)) = true) : ∃ u, Sat u fs ∧ ∀ x ∈ V, u x = v x := by
  simp only [List.any_eq_true, List.all_eq_true] at h
  obtain ⟨m, hm, hv⟩ := h
  obtain ⟨u, hu, hr⟩ := hs.restr _ ((hL _).2 ⟨litsOf D v, cartesian_mem D v, m, hm, rfl⟩)
  refine ⟨u, hu, fun x hx => ?_⟩
  rcases List.mem_append.1 (hr.mem hx) with h1 | h1
  · unfold litsOf at h1
    obtain ⟨y, -, e⟩ := List.mem_map.1 h1
    simp only [Lit.mk.injEq] at e
    rw [← e.2, e.1]
  · exact (lit_eval.1 (hv _ h1)).symm

theorem any_complete {V D : List α} {fs : List (Fm α)} {L com : List (List (Lit α))} (hL : ∀ M, M ∈ L ↔ ∃ b ∈ cartesian D, ∃ m ∈ com, M = b ++ m) (hs : Sound V [] fs L)
    (hc : Complete V fs L) {v : α → Bool} (h : ∃ u, Sat u fs ∧ ∀ x ∈ V, u x = v x) : (com.any fun m => m.all (Lit.eval v)) = true := by
  obtain ⟨u, hu, huv⟩ := h
  obtain ⟨M, hM, hx⟩ := hc u hu
  obtain ⟨u', hu', hr⟩ := hs.restr M hM
  obtain ⟨b, hb, m, hm, rfl⟩ := (hL _).1 hM
  simp only [List.any_eq_true, List.all_eq_true]
  refine ⟨m, hm, fun l hl => ?_⟩
  have h1 := (hr l).1 (List.mem_append_right _ hl)
  have hV : l.var ∈ V := h1.1.elim id fun h => by cases h
  have h2 := hr.val (hx _ hV)
  rw [huv _ hV] at h2
  rw [← h1.2]
  unfold Lit.eval
  rw [h2]

theorem sound_vars {V : List α} {fs : List (Fm α)} {L : List (List (Lit α))} (hs : Sound V [] fs L) : ∀ M ∈ L, ∀ l ∈ M, l.var ∈ V := by
  intro M hM l hl
  obtain ⟨u, -, hr⟩ := hs.restr M hM
  exact ((hr l).1 hl).1.elim id fun h => by cases h

/-- C62 (soundness, for every behaviour of the handler): an assignment under which the BDD is true can be changed outside of the variables so that it satisfies the solver. -/
theorem C62_sound {P : Bdd.Par} (hgr : ∀ s, s < P.grow s) {sz : Nat → Nat} (hsz : ∀ n, 2 ≤ sz n) {g : Cfg α} (hok : g.Ok) (hw : g.Within) {F k : Nat} {V : List α} (hV : V.Nodup)
    {s : St α} (hfs : ∀ f ∈ s.fs, ∀ x ∈ f.vars, x ∈ s.kn) {ok : Bool} {w : Bdd.W α} {a : Nat} (h : toBdd P sz g F k V s = some (ok, w, a)) (v : α → Bool)
    (hv : Bdd.walk w v (V.length + 1) a = some true) : ∃ u, Sat u s.fs ∧ ∀ x ∈ V, u x = v x := by
  unfold toBdd at h
  split at h
  · rename_i hgo
    rcases run_rel g F k V s hgo with ⟨-, e⟩ | ⟨o, s', L, cnt, c, n, e1, e2, hL⟩
    · rw [e] at h; cases h
    · rw [e2] at h
      obtain ⟨-, hs, -⟩ := run_spec hok hw hV hfs (by intro x hx; cases hx) e1
      obtain ⟨w', a', e3, e4, -⟩ := lastBdd_spec hgr hsz V c.com (com_vars hL (cartesian_ne _) (sound_vars hs))
      simp only [e3, Option.map_some, Option.some.injEq, Prod.mk.injEq] at h
      obtain ⟨rfl, rfl, rfl⟩ := h
      rw [e4 v] at hv
      exact any_sound hL hs (Option.some.inj hv)
  · obtain ⟨w', a', e3, e4, -, e6⟩ := lastBdd_spec hgr hsz ([] : List α) [] (by intro m hm; cases hm)
    simp only [e3, Option.map_some, Option.some.injEq, Prod.mk.injEq] at h
    obtain ⟨rfl, rfl, rfl⟩ := h
    have : a' = 0 := e6.2 fun _ => rfl
    subst this
    cases hv

open Classical in
/-- C62: if nothing is cancelled, the BDD is true under exactly the assignments that agree on the variables with an assignment that satisfies the solver. It is the
constant true (false) node iff all (no) assignments do so. -/
theorem C62_bdd {P : Bdd.Par} (hgr : ∀ s, s < P.grow s) {sz : Nat → Nat} (hsz : ∀ n, 2 ≤ sz n) {g : Cfg α} (hok : g.Ok) (hw : g.Within) (ht : g.Total) {F k : Nat} {V : List α}
    (hV : V.Nodup) {s : St α} (hfs : ∀ f ∈ s.fs, ∀ x ∈ f.vars, x ∈ s.kn) {ok : Bool} {w : Bdd.W α} {a : Nat} (h : toBdd P sz g F k V s = some (ok, w, a)) :
    ok = true ∧ (∀ v, Bdd.walk w v (V.length + 1) a = some (decide (∃ u, Sat u s.fs ∧ ∀ x ∈ V, u x = v x))) ∧
    (Bdd.isTautology a = true ↔ ∀ v : α → Bool, ∃ u, Sat u s.fs ∧ ∀ x ∈ V, u x = v x) ∧ (Bdd.isContradiction a = true ↔ ¬ ∃ u, Sat u s.fs) := by
  unfold toBdd at h
  rw [if_pos (ht.2 0)] at h
  rcases run_rel g F k V s (ht.2 0) with ⟨-, e⟩ | ⟨o, s', L, cnt, c, n, e1, e2, hL⟩
  · rw [e] at h; cases h
  · rw [e2] at h
    obtain ⟨-, hs, hc⟩ := run_spec hok hw hV hfs (by intro x hx; cases hx) e1
    obtain ⟨hc1, hc2⟩ := hc ht
    obtain ⟨w', a', e3, e4, e5, e6⟩ := lastBdd_spec hgr hsz V c.com (com_vars hL (cartesian_ne _) (sound_vars hs))
    simp only [e3, Option.map_some, Option.some.injEq, Prod.mk.injEq] at h
    obtain ⟨rfl, rfl, rfl⟩ := h
    have key : ∀ v : α → Bool, (c.com.any fun m => m.all (Lit.eval v)) = decide (∃ u, Sat u s.fs ∧ ∀ x ∈ V, u x = v x) := fun v => by
      rw [Bool.eq_iff_iff, decide_eq_true_eq]
      exact ⟨any_sound hL hs, any_complete hL hs hc2⟩
    refine ⟨hc1, fun v => by rw [e4 v, key v], ?_, ?_⟩
    · unfold Bdd.isTautology
      rw [beq_iff_eq, e5]
      exact forall_congr' fun v => by rw [key v, decide_eq_true_eq]
    · unfold Bdd.isContradiction
      rw [beq_iff_eq, e6]
      simp only [key, decide_eq_false_iff_not]
      exact ⟨fun h ⟨u, hu⟩ => h u ⟨u, hu, fun _ _ => rfl⟩, fun h v ⟨u, hu, _⟩ => h ⟨u, hu⟩⟩

/-- C62: the construction of the BDD does not fail; there is a BDD whenever the iteration ends -/
theorem C62_returns {P : Bdd.Par} (hgr : ∀ s, s < P.grow s) {sz : Nat → Nat} (hsz : ∀ n, 2 ≤ sz n) {g : Cfg α} (hok : g.Ok) (hw : g.Within) {F k : Nat} {V : List α} (hV : V.Nodup)
    {s : St α} (hfs : ∀ f ∈ s.fs, ∀ x ∈ f.vars, x ∈ s.kn) (h : run g F k V [] s ≠ none) : toBdd P sz g F k V s ≠ none := by
  unfold toBdd
  split
  · rename_i hgo
    rcases run_rel g F k V s hgo with ⟨e, -⟩ | ⟨o, s', L, cnt, c, n, e1, e2, hL⟩
    · exact absurd e h
    · rw [e2]
      obtain ⟨-, hs, -⟩ := run_spec hok hw hV hfs (by intro x hx; cases hx) e1
      obtain ⟨w', a', e3, -⟩ := lastBdd_spec hgr hsz V c.com (com_vars hL (cartesian_ne _) (sound_vars hs))
      simp [e3]
  · obtain ⟨w', a', e3, -⟩ := lastBdd_spec hgr hsz ([] : List α) [] (by intro m hm; cases hm)
    simp [e3]

/-- C62: without splits the BDD is there as soon as the limit of models is larger than the number of assignments -/
theorem C62_nosplit {P : Bdd.Par} (hgr : ∀ s, s < P.grow s) {sz : Nat → Nat} (hsz : ∀ n, 2 ≤ sz n) {g : Cfg α} (hok : g.Ok) (hw : g.Within) {V : List α} (hV : V.Nodup)
    {s : St α} (hfs : ∀ f ∈ s.fs, ∀ x ∈ f.vars, x ∈ s.kn) (hm : 2 ^ V.length < g.maxIter 0) : ∃ F k, toBdd P sz g F k V s ≠ none := by
  obtain ⟨F, k, h⟩ := C27_terminates_nosplit hok (A := []) (s := s) hm
  exact ⟨F, k, C62_returns hgr hsz hok hw hV hfs h⟩

/-- C62 (negative, from `C27_cancel_false`): if a handler cancels only a call of the solver, the enumeration reports success with the false BDD although there is a model. -/
theorem C62_cancel_false : ∃ (g : Cfg Nat) (s : St Nat), g.Ok ∧ g.Within ∧ (∀ n, g.go n = true) ∧
    (toBdd (Bdd.exPar 11) (fun _ => 13) g 5 5 [0] s).map (fun r => (r.1, r.2.2)) = some (true, 0) ∧ ∃ v, Sat v s.fs := by
  refine ⟨⟨fun _ _ => none, fun _ => true, fun _ => 100, fun _ => 100, fun _ _ _ => [], fun _ _ => []⟩, ⟨[0], []⟩,
    ⟨by simp, by simp⟩, ⟨by simp, by simp⟩, by simp, by decide +kernel, fun _ => true, by simp [Sat]⟩

/-! ## concrete cases -/

/-- `C62_bdd`, `C62_nosplit`: a solver that is right and never cancelled -/
example : ∃ g : Cfg Nat, g.Ok ∧ g.Total ∧ g.Within ∧ 2 ^ 3 < g.maxIter 0 := by
  classical
  refine ⟨⟨fun _ fs => if h : ∃ v, Sat v fs then some (some h.choose) else some none, fun _ => true, fun _ => 9, fun _ => 3, fun _ _ _ => [], fun _ _ => []⟩, ⟨?_, ?_⟩, ⟨?_, fun _ => rfl⟩, ⟨?_, ?_⟩, by decide⟩
  · intro n fs v h
    simp only at h
    split at h
    · rename_i hs; simp only [Option.some.injEq] at h; exact h ▸ hs.choose_spec
    · cases h
  · intro n fs h
    simp only at h
    split at h
    · cases h
    · assumption
  · intro n fs
    simp only
    split <;> simp
  · simp
  · simp
/-- the models `x0 & ~x1` and `~x0 & x1` over the variables `x0`, `x1`, `x2`; the solver does not know `x2`: the BDD is true under four of the eight assignments -/
example : (lastBdd (Bdd.exPar 11) (fun _ => 13) [0, 1, 2] [[⟨0, true⟩, ⟨1, false⟩], [⟨0, false⟩, ⟨1, true⟩]]).map (fun r =>
    (List.range 8).map fun m => Bdd.walk r.1 (fun x => m.testBit x) 4 r.2) = some ([false, true, true, false, false, true, true, false].map some) := by decide +kernel
/-- no variables: the empty model makes the BDD true -/
example : (lastBdd (Bdd.exPar 11) (fun _ => 13) ([] : List Nat) [[]]).map (·.2) = some 1 := by decide +kernel

end Verif.Enum
