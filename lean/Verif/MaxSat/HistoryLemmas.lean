import Verif.MaxSat.History

/-! # Call histories of the MaxSAT solver (C45): proofs -/

namespace Verif.MaxSat

open Verif
variable {α : Type} [DecidableEq α]

/-- literals and indices belong to variables -/
structure Bd (s : St α) : Prop where
  idx : ∀ e ∈ s.idx, e.2 < s.nbVars
  hard : ∀ c ∈ s.hard, ∀ l ∈ c, l / 2 < s.nbVars
  soft : ∀ c ∈ s.soft, ∀ l ∈ c.1, l / 2 < s.nbVars

/-- `b` has all that is in `a`, and new variables, indices and clauses after it -/
structure Ext (a b : St α) : Prop where
  vars : a.nbVars ≤ b.nbVars
  idx : ∃ x, b.idx = a.idx ++ x ∧ ∀ e ∈ x, a.nbVars ≤ e.2
  hard : ∃ x, b.hard = a.hard ++ x
  soft : ∃ x, b.soft = a.soft ++ x

theorem Ext.refl (a : St α) : Ext a a := ⟨Nat.le_refl _, ⟨[], by simp⟩, ⟨[], by simp⟩, ⟨[], by simp⟩⟩

theorem Ext.trans {a b c : St α} (h : Ext a b) (h' : Ext b c) : Ext a c := by
  obtain ⟨h1, ⟨x, hx, hx'⟩, ⟨y, hy⟩, ⟨z, hz⟩⟩ := h
  obtain ⟨k1, ⟨x', kx, kx'⟩, ⟨y', ky⟩, ⟨z', kz⟩⟩ := h'
  refine ⟨Nat.le_trans h1 k1, ⟨x ++ x', by rw [kx, hx, List.append_assoc], fun e he => ?_⟩, ⟨y ++ y', by rw [ky, hy, List.append_assoc]⟩, ⟨z ++ z', by rw [kz, hz, List.append_assoc]⟩⟩
  rcases List.mem_append.1 he with he | he
  · exact hx' e he
  · exact Nat.le_trans h1 (kx' e he)

theorem xor_one_div (i : Nat) : Nat.xor (i * 2) 1 / 2 = i := by
  show (i * 2 ^^^ 1) / 2 = i
  rw [Nat.xor_div_two]; simp

theorem lookup_mem {idx : List (α × Nat)} {x : α} {i : Nat} (h : idx.lookup x = some i) : (x, i) ∈ idx := by
  induction idx with
  | nil => cases h
  | cons e l ih =>
    obtain ⟨y, j⟩ := e
    rw [List.lookup_cons] at h
    split at h
    · rename_i he
      cases h
      rw [beq_iff_eq.1 he]
      exact List.mem_cons_self
    · exact List.mem_cons_of_mem _ (ih h)

theorem putLit_bd {s : St α} (hb : Bd s) {vec : List Nat} (hv : ∀ l ∈ vec, l / 2 < s.nbVars) (l : Lit α) :
    let r := putLit (s, vec) l
    Bd r.1 ∧ Ext s r.1 ∧ r.1.hard = s.hard ∧ r.1.soft = s.soft ∧ (∀ k ∈ r.2, k / 2 < r.1.nbVars) ∧ r.2 ≠ [] := by
  have hd : ∀ i, (if l.pos then i * 2 else Nat.xor (i * 2) 1) / 2 = i := fun i => by
    split
    · omega
    · exact xor_one_div i
  simp only [putLit]
  cases h : s.idx.lookup l.var with
  | some i =>
    refine ⟨hb, Ext.refl s, rfl, rfl, fun k hk => ?_, by simp⟩
    rcases List.mem_append.1 hk with hk | hk
    · exact hv k hk
    · rw [List.mem_singleton.1 hk, hd]
      exact hb.idx _ (lookup_mem h)
  | none =>
    refine ⟨⟨fun e he => ?_, fun c hc k hk => Nat.lt_succ_of_lt (hb.hard c hc k hk), fun c hc k hk => Nat.lt_succ_of_lt (hb.soft c hc k hk)⟩,
      ⟨Nat.le_succ _, ⟨_, rfl, by simp⟩, ⟨[], by simp⟩, ⟨[], by simp⟩⟩, rfl, rfl, fun k hk => ?_, by simp⟩
    · rcases List.mem_append.1 he with he | he
      · exact Nat.lt_succ_of_lt (hb.idx e he)
      · rw [List.mem_singleton.1 he]; exact Nat.lt_succ_self _
    · rcases List.mem_append.1 hk with hk | hk
      · exact Nat.lt_succ_of_lt (hv k hk)
      · rw [List.mem_singleton.1 hk, hd]; exact Nat.lt_succ_self _

theorem foldl_putLit_bd (ls : List (Lit α)) : ∀ {s : St α} (_ : Bd s) {vec : List Nat} (_ : ∀ l ∈ vec, l / 2 < s.nbVars),
    let r := ls.foldl putLit (s, vec)
    Bd r.1 ∧ Ext s r.1 ∧ r.1.hard = s.hard ∧ r.1.soft = s.soft ∧ ∀ k ∈ r.2, k / 2 < r.1.nbVars := by
  induction ls with
  | nil => intro s hb vec hv; exact ⟨hb, Ext.refl s, rfl, rfl, hv⟩
  | cons l ls ih =>
    intro s hb vec hv
    obtain ⟨a1, a2, a3, a4, a5, _⟩ := putLit_bd hb hv l
    obtain ⟨b1, b2, b3, b4, b5⟩ := ih a1 a5
    exact ⟨b1, a2.trans b2, b3.trans a3, b4.trans a4, b5⟩

theorem clauseVec_bd {ord : List (Lit α) → List (Lit α)} (ho : ∀ l, (ord l).Perm l) {s : St α} (hw : WF s) (hb : Bd s) {f : Fm α} (hr : Regular f) :
    let r := clauseVec ord s f
    Bd r.1 ∧ Ext s r.1 ∧ r.1.hard = s.hard ∧ r.1.soft = s.soft ∧ (∀ k ∈ r.2, k / 2 < r.1.nbVars) ∧ (f ≠ .or [] → r.2 ≠ []) := by
  obtain ⟨h1, _, _⟩ := regular_lits hr
  obtain ⟨_, _, _, _, _, _, _, ks, b8, b9, _⟩ := foldl_putLit (ord (clauseLits f)) s [] hw
  obtain ⟨c1, c2, c3, c4, c5⟩ := foldl_putLit_bd (ord (clauseLits f)) hb (vec := []) (by simp)
  rw [List.nil_append] at b8
  have hlen : numAtoms f - ks.length = 0 := by
    rw [b9, (ho _).length_eq, h1]; omega
  have hks : (clauseVec ord s f).2 = ks := by simp only [clauseVec, b8, hlen, List.replicate_zero, List.append_nil]
  have hst : (clauseVec ord s f).1 = ((ord (clauseLits f)).foldl putLit (s, [])).1 := rfl
  rw [b8] at c5
  dsimp only
  rw [hks, hst]
  refine ⟨c1, c2, c3, c4, c5, fun hne he => ?_⟩
  have h0 : numAtoms f = 0 := by rw [← h1, ← (ho _).length_eq, ← b9, he]; rfl
  cases f with
  | lit l => simp [numAtoms] at h0
  | or fs =>
    obtain ⟨_, h2⟩ := hr
    rw [numAtoms, numAtomsL_lits _ h2, List.length_eq_zero_iff] at h0
    exact hne (by rw [h0])
  | _ => exact hr

/-- soft clauses have positive weights and literals -/
def SPos (s : St α) : Prop := ∀ c ∈ s.soft, 1 ≤ c.2 ∧ c.1 ≠ []

def OpOk (op : Op α) : Prop := op.Ok ∧ match op with
    | .soft f w => 1 ≤ w ∧ f ≠ .or []
    | _ => True

theorem step_bd {ord : List (Lit α) → List (Lit α)} (ho : ∀ l, (ord l).Perm l) {s : St α} (hw : WF s) (hb : Bd s) (hp : SPos s) {op : Op α} (hop : OpOk op) :
    Bd (step ord s op) ∧ Ext s (step ord s op) ∧ SPos (step ord s op) := by
  cases op with
  | newVar =>
    exact ⟨⟨fun e he => Nat.lt_succ_of_lt (hb.idx e he), fun c hc k hk => Nat.lt_succ_of_lt (hb.hard c hc k hk), fun c hc k hk => Nat.lt_succ_of_lt (hb.soft c hc k hk)⟩,
      ⟨Nat.le_succ _, ⟨[], by simp [step, newVar]⟩, ⟨[], by simp [step, newVar]⟩, ⟨[], by simp [step, newVar]⟩⟩, hp⟩
  | hard f =>
    obtain ⟨a1, a2, a3, a4, a5, _⟩ := clauseVec_bd ho hw hb (f := f) hop.1
    refine ⟨⟨a1.idx, fun c hc => ?_, a1.soft⟩, ⟨a2.vars, a2.idx, ⟨[(clauseVec ord s f).2], by simp only [step, addHard, a3]⟩, a2.soft⟩, fun c hc => hp c ?_⟩
    · rcases List.mem_append.1 hc with hc | hc
      · exact a1.hard c hc
      · rw [List.mem_singleton.1 hc]; exact a5
    · have hc' : c ∈ (clauseVec ord s f).1.soft := hc
      rwa [a4] at hc'
  | soft f w =>
    obtain ⟨a1, a2, a3, a4, a5, a6⟩ := clauseVec_bd ho hw hb (f := f) hop.1
    refine ⟨⟨a1.idx, a1.hard, fun c hc => ?_⟩, ⟨a2.vars, a2.idx, a2.hard, ⟨[((clauseVec ord s f).2, w)], by simp only [step, addSoft, a4]⟩⟩, fun c hc => ?_⟩
    · rcases List.mem_append.1 hc with hc | hc
      · exact a1.soft c hc
      · rw [List.mem_singleton.1 hc]; exact a5
    · rcases List.mem_append.1 hc with hc | hc
      · rw [a4] at hc; exact hp c hc
      · rw [List.mem_singleton.1 hc]; exact ⟨hop.2.1, a6 hop.2.2⟩

theorem foldl_bd {ord : List (Lit α) → List (Lit α)} (ho : ∀ l, (ord l).Perm l) (ops : List (Op α)) : ∀ {s : St α} {hs : List (Fm α)} {ss : List (Fm α × Nat)} (_ : Loaded s hs ss) (_ : Bd s) (_ : SPos s)
    (_ : ∀ op ∈ ops, OpOk op), Bd (ops.foldl (step ord) s) ∧ Ext s (ops.foldl (step ord) s) ∧ SPos (ops.foldl (step ord) s) := by
  induction ops with
  | nil => intro s _ _ _ hb hp _; exact ⟨hb, Ext.refl s, hp⟩
  | cons op ops ih =>
    intro s hs ss hl hb hp hok
    obtain ⟨a1, a2, a3⟩ := step_bd ho hl.wf hb hp (hok op List.mem_cons_self)
    obtain ⟨b1, b2, b3⟩ := ih (step_loaded ho hl op (hok op List.mem_cons_self).1) a1 a3 fun o h => hok o (List.mem_cons_of_mem _ h)
    exact ⟨b1, a2.trans b2, b3⟩

theorem run_bd {ord : List (Lit α) → List (Lit α)} (ho : ∀ l, (ord l).Perm l) {ops : List (Op α)} (hok : ∀ op ∈ ops, OpOk op) : Bd (run ord ops) ∧ SPos (run ord ops) := by
  obtain ⟨a, _, c⟩ := foldl_bd ho ops (run_loaded ho [] (by simp)) (by exact ⟨by simp [run, St.new], by simp [run, St.new], by simp [run, St.new]⟩) (by simp [SPos, run, St.new]) hok
  exact ⟨a, c⟩

theorem run_ext {ord : List (Lit α) → List (Lit α)} (ho : ∀ l, (ord l).Perm l) {a b : List (Op α)} (h : a <+: b) (hok : ∀ op ∈ b, OpOk op) : Ext (run ord a) (run ord b) := by
  obtain ⟨x, rfl⟩ := h
  have ha : ∀ op ∈ a, OpOk op := fun o h => hok o (List.mem_append_left _ h)
  obtain ⟨h1, h2⟩ := run_bd ho ha
  have := (foldl_bd ho x (run_loaded ho a fun o h => (ha o h).1) h1 h2 fun o h => hok o (List.mem_append_right _ h)).2.1
  unfold run at this ⊢
  rwa [List.foldl_append]

end Verif.MaxSat
