import Verif.NormalForm.Constr
import Verif.PB.EncodeProps
/-! The encoders of C12–C16 as the encoder of the NNF: each constraint has its own range of auxiliary variables (the counter of the factory), and the transformation cache
keeps one encoding per constraint. -/
set_option linter.unusedSectionVars false
namespace Verif.NF
open Verif Verif.Tree Verif.Spec
variable {α : Type} [DecidableEq α]

/-- names of the variables of encodings: those of the constraint, and reserved ones -/
def nmE (nm : Nat → α) : Enc.EV α → α
  | .usr a => a
  | .aux n => nm n

/-- normalform/nnf.go:86-92: the NNF of the clauses of an encoding (encoding/result.go:35-38: each made by `Clause`), which is their conjunction -/
def clsFm (cons : Bool) (nm : Nat → α) (cs : List (Enc.Clause α)) : Fm α :=
  tAnd cons (cs.map fun cl => tOr cons (cl.map fun l => .lit ⟨nmE nm l.var, l.pos⟩))

theorem clsFm_eval (cons : Bool) (nm : Nat → α) (cs : List (Enc.Clause α)) (w : α → Bool) :
    (clsFm cons nm cs).eval w = true ↔ Enc.Sat (fun x => w (nmE nm x)) cs := by
  simp only [clsFm, eval_tAnd, List.all_map, List.all_eq_true, Function.comp, eval_tOr, List.any_map, List.any_eq_true, Enc.Sat, Fm.eval_lit]
  rfl

theorem clsFm_cnd (cons : Bool) (nm : Nat → α) (cs : List (Enc.Clause α)) : CndC cons (clsFm cons nm cs) := by
  refine cndC_tAnd fun f hf => ?_
  obtain ⟨cl, _, rfl⟩ := List.mem_map.1 hf
  refine cndC_tOr fun g hg => ?_
  obtain ⟨l, _, rfl⟩ := List.mem_map.1 hg
  exact .lit _ _

theorem clsFm_cnf (cons : Bool) (nm : Nat → α) (cs : List (Enc.Clause α)) : isCNF (clsFm cons nm cs) = true := by
  refine isCNF_tAnd fun f hf => ?_
  obtain ⟨cl, _, rfl⟩ := List.mem_map.1 hf
  refine isNF_innerJoin (c := cons) (d := true) fun g hg => ?_
  obtain ⟨l, _, rfl⟩ := List.mem_map.1 hg
  simp [isCl, isClause]

theorem clsFm_vars {cons : Bool} {nm : Nat → α} {cs : List (Enc.Clause α)} : ∀ x ∈ (clsFm cons nm cs).vars, ∃ cl ∈ cs, ∃ l ∈ cl, x = nmE nm l.var := by
  refine VIn.tAnd (X := fun x => ∃ cl ∈ cs, ∃ l ∈ cl, x = nmE nm l.var) fun f hf => ?_
  obtain ⟨cl, hc, rfl⟩ := List.mem_map.1 hf
  refine VIn.tOr fun g hg => ?_
  obtain ⟨l, hl, rfl⟩ := List.mem_map.1 hg
  intro x hx
  simp at hx
  exact ⟨cl, hc, l, hl, hx⟩

/-- every constraint in `P` has an encoding in the sense of C12–C16 with its own auxiliary variables `lo g`, …, `hi g - 1` -/
structure EncBy (nm : Nat → α) (P : Fm α → Prop) (lo hi : Fm α → Nat) (cls : Fm α → List (Enc.Clause α)) : Prop where
  inj : ∀ m n, nm m = nm n → m = n
  off : ∀ g, P g → isPB g = true → ∀ n, nm n ∉ g.vars
  enc : ∀ g, P g → isPB g = true → Enc.Encodes g.vars (lo g) (hi g) (cls g) (fun v => g.eval v = true)
  disj : ∀ g g', P g → isPB g = true → P g' → isPB g' = true → g ≠ g' → hi g ≤ lo g' ∨ hi g' ≤ lo g

section
variable {cons : Bool} {nm : Nat → α} {P : Fm α → Prop} {lo hi : Fm α → Nat} {cls : Fm α → List (Enc.Clause α)}

theorem EncBy.good (h : EncBy nm P lo hi cls) : EncGood cons P (fun g => clsFm cons nm (cls g)) where
  cnd _ _ _ := clsFm_cnd _ _ _
  cnf _ _ _ := clsFm_cnf _ _ _
  sound g hg hp w hw := (h.enc g hg hp).sound _ ((clsFm_eval _ _ _ _).1 hw)

open Classical in
/-- all encodings at once: any assignment can be changed on the auxiliary variables so that the encodings of the true constraints hold -/
theorem EncBy.joint (h : EncBy nm P lo hi cls) (v : α → Bool) :
    ∃ w, (∀ x, ¬(∃ n, x = nm n) → w x = v x) ∧ Good P (fun g => clsFm cons nm (cls g)) w := by
  have ex : ∀ g, P g ∧ isPB g = true ∧ g.eval v = true → ∃ w' : Enc.EV α → Bool, (∀ a, w' (.usr a) = v a) ∧ Enc.Sat w' (cls g) := by
    rintro g ⟨h1, h2, h3⟩
    obtain ⟨w', a, _, b⟩ := (h.enc g h1 h2).complete v (fun _ => false) h3
    exact ⟨w', a, b⟩
  let W : Fm α → Enc.EV α → Bool := fun g => if hg : P g ∧ isPB g = true ∧ g.eval v = true then (ex g hg).choose else fun _ => false
  have hW : ∀ g, P g ∧ isPB g = true ∧ g.eval v = true → (∀ a, W g (.usr a) = v a) ∧ Enc.Sat (W g) (cls g) := by
    intro g hg
    have := (ex g hg).choose_spec
    simp only [W, dif_pos hg]
    exact this
  let own : α → Fm α × Nat → Prop := fun x q => (P q.1 ∧ isPB q.1 = true ∧ q.1.eval v = true) ∧ lo q.1 ≤ q.2 ∧ q.2 < hi q.1 ∧ x = nm q.2
  have uniq : ∀ x q q', own x q → own x q' → q = q' := by
    rintro x ⟨g, n⟩ ⟨g', n'⟩ ⟨a1, a2, a3, a4⟩ ⟨b1, b2, b3, b4⟩
    have e : n = n' := h.inj _ _ (a4.symm.trans b4)
    subst e
    by_cases hg : g = g'
    · rw [hg]
    · dsimp only at *
      rcases h.disj g g' a1.1 a1.2.1 b1.1 b1.2.1 hg with h | h <;> omega
  obtain ⟨W0, no, yes⟩ : ∃ W0 : α → Bool, (∀ x, (¬∃ q, own x q) → W0 x = v x) ∧ ∀ x q, own x q → W0 x = W q.1 (.aux q.2) := by
    refine ⟨fun x => if hx : ∃ q, own x q then W hx.choose.1 (.aux hx.choose.2) else v x, fun x hx => dif_neg hx, fun x q hq => ?_⟩
    have hx : ∃ q, own x q := ⟨q, hq⟩
    refine (dif_pos hx).trans ?_
    rw [uniq _ _ _ hx.choose_spec hq]
  refine ⟨W0, fun x hx => no x ?_, ?_⟩
  · rintro ⟨q, _, _, _, e⟩
    exact hx ⟨_, e⟩
  · intro g hg hp he
    have offE : ∀ x ∈ g.vars, ¬∃ q, own x q := by
      rintro x hx ⟨q, _, _, _, e⟩
      exact h.off g hg hp q.2 (e ▸ hx)
    have he : g.eval v = true := by
      rw [← he]; exact Fm.eval_congr g fun x hx => (no x (offE x hx)).symm
    obtain ⟨w1, w2⟩ := hW g ⟨hg, hp, he⟩
    rw [clsFm_eval]
    refine (Enc.sat_congr fun cl hcl l hl => ?_).1 w2
    rcases (h.enc g hg hp).vars cl hcl l hl with ⟨a, ha, e⟩ | ⟨n, e, n1, n2⟩
    · rw [e, w1]
      exact (no a (offE a ha)).symm
    · rw [e]
      exact (yes (nm n) (g, n) ⟨⟨hg, hp, he⟩, n1, n2, rfl⟩).symm

theorem EncBy.vars (h : EncBy nm P lo hi cls) {g : Fm α} (hg : P g) (hp : isPB g = true) :
    ∀ x ∈ (clsFm cons nm (cls g)).vars, x ∈ g.vars ∨ ∃ n, lo g ≤ n ∧ n < hi g ∧ x = nm n := by
  intro x hx
  obtain ⟨cl, hc, l, hl, rfl⟩ := clsFm_vars x hx
  rcases (h.enc g hg hp).vars cl hc l hl with ⟨a, ha, e⟩ | ⟨n, e, n1, n2⟩
  · rw [e]; exact .inl ha
  · rw [e]; exact .inr ⟨n, n1, n2, rfl⟩

/-- encoding/pbc_encoding.go:31-55 `EncodePBCInResult`: cardinality constraints to `EncodeCC`, others to the encoders of pseudo-Boolean constraints -/
def encodeTop (cons : Bool) (ord : PB.Terms α → PB.Terms α) (pcfg : PB.PbCfg) (ccfg : Enc.CCCfg) (fuel k : Nat) : Fm α → Option (List (Enc.Clause α) × Nat)
  | .cc c rhs xs => if rhs < 0 then none else Enc.encodeCC [] ccfg fuel k c rhs.toNat (Enc.usrs xs)
  | .pbc c rhs ts => PB.encodePB cons ord [] pcfg ccfg fuel k c rhs ts
  | _ => none

/-- the constraints for which C13 and C16 hold: no equation in which a zero coefficient precedes a nonzero one, no sum beyond `2^31` for adder networks -/
def Encodable (pcfg : PB.PbCfg) : Fm α → Prop
  | .pbc c _ ts => (c = .eq → PB.ZerosLast ts) ∧ (pcfg.enc = .adder → PB.absSum ts ≤ 2 ^ 31)
  | _ => True

theorem encodeCC_le {cfg : Enc.CCCfg} {fuel k rhs : Nat} {c : Cmp} {xs : List α} {r : List (Enc.Clause α) × Nat}
    (h : Enc.encodeCC [] cfg fuel k c rhs (Enc.usrs xs) = some r) : k ≤ r.2 := by
  unfold Enc.encodeCC at h
  cases c <;> simp only at h
  · split at h
    · unfold Enc.exo at h
      split at h
      · cases h; exact Nat.le_refl _
      · split at h
        · cases h; exact Nat.le_refl _
        · split at h
          · cases h
          · rename_i ha
            cases h; exact (Enc.amo_exact Enc.usrs_old ha).le
    · exact (Enc.exk_exact Enc.usrs_old h).le
  · split at h
    · exact (Enc.amo_exact Enc.usrs_old h).le
    · cases h; exact (Enc.amk_exact Enc.usrs_old).le
  · split at h
    · cases h
    · split at h
      · exact (Enc.amo_exact Enc.usrs_old h).le
      · cases h; exact (Enc.amk_exact Enc.usrs_old).le
  · cases h; exact (Enc.alk_exact Enc.usrs_old).le
  · cases h; exact (Enc.alk_exact Enc.usrs_old).le

theorem negParts_vars {c : Cmp} {k : Int} {ts : List (Int × Lit α)} {g : Fm α} (hg : g ∈ negParts c k ts) : ∀ x ∈ g.vars, x ∈ ts.map (·.2.var) := by
  have key : ∀ c' : Cmp, ∀ x ∈ (tPBC c' k ts).vars, x ∈ ts.map (·.2.var) := by
    intro c' x hx
    unfold tPBC at hx
    split at hx
    · unfold tConst at hx; split at hx <;> simp at hx
    · split at hx <;> simpa using hx
  cases c <;> simp only [negParts, List.mem_cons, List.not_mem_nil, or_false] at hg <;> first | (subst hg; exact key _) | (rcases hg with rfl | rfl <;> exact key _)

/-- the constraints of a formula have its variables -/
theorem pbs_vars (f : Fm α) : ∀ g ∈ pbs f, ∀ x ∈ g.vars, x ∈ f.vars := by
  induction f using Fm.ind with
  | hn f ih => simpa using ih
  | ha fs ih =>
    intro g hg x hx
    simp only [pbs_and, List.mem_flatMap] at hg
    obtain ⟨f, hf, hg⟩ := hg
    simp only [Fm.vars_and, List.mem_flatMap]
    exact ⟨f, hf, ih f hf g hg x hx⟩
  | ho fs ih =>
    intro g hg x hx
    simp only [pbs_or, List.mem_flatMap] at hg
    obtain ⟨f, hf, hg⟩ := hg
    simp only [Fm.vars_or, List.mem_flatMap]
    exact ⟨f, hf, ih f hf g hg x hx⟩
  | hi f g h1 h2 =>
    intro q hq x hx
    simp only [pbs_impl, List.mem_append] at hq
    simp only [Fm.vars_impl, List.mem_append]
    exact hq.imp (fun h => h1 q h x hx) fun h => h2 q h x hx
  | he f g h1 h2 =>
    intro q hq x hx
    simp only [pbs_equiv, List.mem_append] at hq
    simp only [Fm.vars_equiv, List.mem_append]
    exact hq.imp (fun h => h1 q h x hx) fun h => h2 q h x hx
  | hc c k xs =>
    intro g hg x hx
    rw [pbs_cc, List.mem_cons] at hg
    rcases hg with rfl | hg
    · exact hx
    · have := negParts_vars hg x hx
      simpa [unitTerms] using this
  | hp c k ts =>
    intro g hg x hx
    rw [pbs_pbc, List.mem_cons] at hg
    rcases hg with rfl | hg
    · exact hx
    · simpa using negParts_vars hg x hx
  | _ => simp [pbs]

theorem encodeTop_ok {ord : PB.Terms α → PB.Terms α} (ho : ∀ l, (ord l).Perm l) {pcfg : PB.PbCfg} {ccfg : Enc.CCCfg} {fuel k : Nat} {g : Fm α}
    {r : List (Enc.Clause α) × Nat} (hg : Encodable pcfg g) (h : encodeTop cons ord pcfg ccfg fuel k g = some r) :
    PB.EncOK g.vars k r (fun v => g.eval v = true) := by
  cases g with
  | cc c rhs xs =>
    simp only [encodeTop] at h
    split at h
    · cases h
    · rename_i h0
      have := Enc.C13_encodeCC_partial h
      have e : ((rhs.toNat : Nat) : Int) = rhs := by omega
      rw [e] at this
      exact ⟨encodeCC_le h, by simpa using this⟩
  | pbc c rhs ts =>
    obtain ⟨f, hf, hn, he⟩ := PB.C15_normalize_partial cons ho 0 c rhs ts hg.1
    simp only [encodeTop, PB.encodePB] at h
    rw [hf, Option.bind_some] at h
    have := PB.encodeTop_ok ho hn hg.2 h
    simpa only [he, Fm.vars_pbc] using this
  | _ => cases h

/-! ### the encodings of a factory: one after the other -/

/-- the encodings a factory makes of the constraints `gs`, in this order, with one counter (normalform/nnf.go:82-88 with the cache of 47-50 and 97: one encoding per
constraint).  Entries: constraint, first auxiliary variable, clauses, next auxiliary variable.  The three counters of the factory (formula/factory.go `NewCCVariable`, `NewPBCVariable`,
`NewCNFVariable`) are one here: names with different counters are different in any case. -/
def encodeAll (cons : Bool) (ord : PB.Terms α → PB.Terms α) (pcfg : PB.PbCfg) (ccfg : Enc.CCCfg) (fuel : Nat) :
    List (Fm α) → Nat → Option (List (Fm α × Nat × List (Enc.Clause α) × Nat))
  | [], _ => some []
  | g :: gs, k => (encodeTop cons ord pcfg ccfg fuel k g).bind fun r => (encodeAll cons ord pcfg ccfg fuel gs r.2).map fun t => (g, k, r.1, r.2) :: t

/-- the entry of a constraint -/
def entry (t : List (Fm α × Nat × List (Enc.Clause α) × Nat)) (g : Fm α) : Nat × List (Enc.Clause α) × Nat := ((t.find? fun e => e.1 == g).map (·.2)).getD (0, [], 0)

/-- the encoding which `nnfRec` takes from the cache -/
def encTab (cons : Bool) (nm : Nat → α) (t : List (Fm α × Nat × List (Enc.Clause α) × Nat)) (g : Fm α) : Fm α := clsFm cons nm (entry t g).2.1

theorem entry_cons (g : Fm α) (q : Nat × List (Enc.Clause α) × Nat) (t : List (Fm α × Nat × List (Enc.Clause α) × Nat)) (g' : Fm α) :
    entry ((g, q) :: t) g' = if g = g' then q else entry t g' := by
  unfold entry
  rw [List.find?_cons]
  by_cases h : g = g'
  · simp [h]
  · rw [if_neg h, beq_eq_false_iff_ne.2 h]

theorem encodeAll_ok {ord : PB.Terms α → PB.Terms α} (ho : ∀ l, (ord l).Perm l) {pcfg : PB.PbCfg} {ccfg : Enc.CCCfg} {fuel : Nat} :
    ∀ (gs : List (Fm α)) (k : Nat) (t : List (Fm α × Nat × List (Enc.Clause α) × Nat)), (∀ g ∈ gs, Encodable pcfg g) →
      encodeAll cons ord pcfg ccfg fuel gs k = some t →
      (∀ g ∈ gs, k ≤ (entry t g).1 ∧ Enc.Encodes g.vars (entry t g).1 (entry t g).2.2 (entry t g).2.1 (fun v => g.eval v = true)) ∧
      ∀ g ∈ gs, ∀ g' ∈ gs, g ≠ g' → (entry t g).2.2 ≤ (entry t g').1 ∨ (entry t g').2.2 ≤ (entry t g).1
  | [], _, _, _, _ => by simp
  | g :: gs, k, t, hg, h => by
    simp only [encodeAll] at h
    obtain ⟨r, hr, h⟩ := Option.bind_eq_some_iff.1 h
    obtain ⟨t', ht, rfl⟩ := Option.map_eq_some_iff.1 h
    obtain ⟨i1, i2⟩ := encodeAll_ok ho gs r.2 t' (fun x hx => hg x (List.mem_cons_of_mem _ hx)) ht
    have e := encodeTop_ok ho (hg g List.mem_cons_self) hr
    have hk : k ≤ r.2 := e.1
    refine ⟨fun g' hg' => ?_, fun g1 h1 g2 h2 hne => ?_⟩
    · rw [entry_cons]
      split
      · rename_i hh; subst hh; exact ⟨Nat.le_refl _, e.2⟩
      · rename_i hh
        have := i1 g' ((List.mem_cons.1 hg').resolve_left fun x => hh x.symm)
        exact ⟨Nat.le_trans hk this.1, this.2⟩
    · rw [entry_cons, entry_cons]
      split
      · rename_i e1
        rw [if_neg (e1 ▸ hne)]
        exact .inl (i1 g2 ((List.mem_cons.1 h2).resolve_left fun x => hne (e1.symm.trans x.symm))).1
      · rename_i e1
        have m1 := (List.mem_cons.1 h1).resolve_left fun x => e1 x.symm
        split
        · exact .inr (i1 g1 m1).1
        · rename_i e2
          exact i2 g1 m1 g2 ((List.mem_cons.1 h2).resolve_left fun x => e2 x.symm) hne

/-- C46 for formulas with cardinality and pseudo-Boolean constraints anywhere inside, with the encoders of C12–C16.  Whatever encoders are configured, whatever constraints
`gs` the factory has encoded before and now and in whatever order, whatever algorithm for the CNF is configured and whatever the caches contain: `CNF` returns a formula in
conjunctive normal form whose models, projected to the variables that are no auxiliary variables, are exactly the models of the input; all other variables are those of the
input, auxiliary variables of encodings, and new auxiliary variables.
Missing: constraints for which the encoders themselves are wrong (see `Encodable`, `C46_eq_false`). -/
theorem C46_encoders_partial (cons : Bool) (aux nm : Nat → α) (haux : ∀ m n, aux m = aux n → m = n) (hnm : ∀ m n, nm m = nm n → m = n) (hne : ∀ m n, aux m ≠ nm n)
    {ord : PB.Terms α → PB.Terms α} (ho : ∀ l, (ord l).Perm l) (pcfg : PB.PbCfg) (ccfg : Enc.CCCfg) (fuel k : Nat) (gs : List (Fm α))
    (t : List (Fm α × Nat × List (Enc.Clause α) × Nat)) (ht : encodeAll cons ord pcfg ccfg fuel gs k = some t) (hgs : ∀ g ∈ gs, Encodable pcfg g)
    (hv : ∀ g ∈ gs, ∀ x ∈ g.vars, ∀ n, x ≠ nm n ∧ x ≠ aux n)
    (bot : α) (cfg : Cfg) (f : Fm α) (hf : ∀ g ∈ pbs f, isPB g = true → g ∈ gs) (hx : ∀ x ∈ f.vars, ∀ n, x ≠ nm n ∧ x ≠ aux n) (c : CS α)
    (hc : CacheE true (· ∈ gs) (encTab cons nm t) c.cache) :
    isCNF (cnf cons aux bot (encTab cons nm t) cfg f c).1 = true ∧
    (∀ v, f.eval v = true ↔ ∃ w, (∀ x, (∀ n, x ≠ nm n ∧ x ≠ aux n) → w x = v x) ∧ (cnf cons aux bot (encTab cons nm t) cfg f c).1.eval w = true) ∧
    (∀ x ∈ (cnf cons aux bot (encTab cons nm t) cfg f c).1.vars, x ∈ f.vars ∨ (∃ n, x = nm n) ∨
      ∃ n, c.cnt ≤ n ∧ n < (cnf cons aux bot (encTab cons nm t) cfg f c).2.cnt ∧ x = aux n) ∧
    CacheE true (· ∈ gs) (encTab cons nm t) (cnf cons aux bot (encTab cons nm t) cfg f c).2.cache := by
  obtain ⟨e1, e2⟩ := encodeAll_ok ho gs k t hgs ht
  have E : EncBy nm (· ∈ gs) (fun g => (entry t g).1) (fun g => (entry t g).2.2) (fun g => (entry t g).2.1) :=
    ⟨hnm, fun g hg _ n h => (hv g hg _ h n).1 rfl, fun g hg _ => (e1 g hg).2, fun g g' hg _ hg' _ hne => e2 g hg g' hg' hne⟩
  have hP : FreshP aux (· ∈ gs) (encTab cons nm t) c.cnt := by
    intro g hg hp n _
    refine ⟨fun h => (hv g hg _ h n).2 rfl, fun h => ?_⟩
    rcases E.vars hg hp _ h with h | ⟨m, _, _, h⟩
    · exact (hv g hg _ h n).2 rfl
    · exact hne _ _ h
  obtain ⟨a1, a2, a3, _, a5⟩ := C46_constraints_partial (bot := bot) haux (E.good (cons := cons)) (fun x => ∃ n, x = nm n) (E.joint (cons := cons)) cfg f hf
    (fun x h ⟨n, e⟩ => (hx x h n).1 e) c (fun n _ h => (hx _ h n).2 rfl) hP hc
  refine ⟨a1, fun v => ⟨fun h => ?_, fun ⟨w, e, t⟩ => ?_⟩, fun x h => ?_, a5⟩
  · obtain ⟨w, e, t⟩ := (a2 v).1 h
    exact ⟨w, fun x hn => e x (fun ⟨n, h⟩ => (hn n).1 h) fun n _ => (hn n).2, t⟩
  · have := (a2 w).2 ⟨w, fun _ _ _ => rfl, t⟩
    rw [← this]
    exact Fm.eval_congr f fun x h => (e x (hx x h)).symm
  · rcases a3 x h with h | ⟨g, hg, hp, h⟩ | h
    · exact .inl h
    · rcases E.vars (hf g hg hp) hp _ h with h | ⟨m, _, _, h⟩
      · exact .inl (pbs_vars f g hg x h)
      · exact .inr (.inl ⟨m, h⟩)
    · exact .inr (.inr h)
end

section examples
def exN (n : Nat) : Nat := 3 * n + 1
def exX (n : Nat) : Nat := 3 * n + 2
/-- the case of `C46_encoders_partial`: constraints under an implication, a negation and a disjunction -/
def exC : Fm Nat := .and [.or [.lit ⟨0, false⟩, .cc .le 1 [3, 12]], .impl (.lit ⟨0, true⟩) (.not (.pbc .le 2 [(2, ⟨3, true⟩), (3, ⟨6, false⟩), (1, ⟨9, true⟩)]))]
def exPb : PB.PbCfg := ⟨.swc, ⟨true, true, false⟩, fun _ => false⟩

/-- the constraints and their negations are encoded one after the other, and need auxiliary variables -/
example : ((encodeAll true id exPb (Enc.ccOf .best) 9 (pbs exC) 0).map fun t => t.map fun e => (e.2.1, e.2.2.1.length, e.2.2.2)) =
    some [(0, 1, 0), (0, 2, 0), (0, 8, 4), (4, 16, 13)] := by decide +kernel
example : ∀ g ∈ pbs exC, Encodable exPb g := by
  intro g hg
  have : pbs exC = [.cc .le 1 [3, 12], .cc .gt 1 [3, 12], .pbc .le 2 [(2, ⟨3, true⟩), (3, ⟨6, false⟩), (1, ⟨9, true⟩)],
      .pbc .gt 2 [(2, ⟨3, true⟩), (3, ⟨6, false⟩), (1, ⟨9, true⟩)]] := by decide +kernel
  rw [this] at hg
  simp only [List.mem_cons, List.not_mem_nil, or_false] at hg
  rcases hg with rfl | rfl | rfl | rfl <;> simp [Encodable, exPb]
example : (∀ x ∈ exC.vars, ∀ n, x ≠ exX n ∧ x ≠ exN n) ∧ (∀ g ∈ pbs exC, ∀ x ∈ g.vars, ∀ n, x ≠ exX n ∧ x ≠ exN n) ∧ ∀ m n, exN m ≠ exX n := by
  have : ∀ x ∈ exC.vars, ∀ n, x ≠ exX n ∧ x ≠ exN n := by
    intro x hx n
    have : exC.vars = [0, 3, 12, 0, 3, 6, 9] := by decide
    rw [this] at hx; simp only [List.mem_cons, List.not_mem_nil, or_false] at hx
    unfold exX exN; omega
  exact ⟨this, fun g hg x hx => this x (pbs_vars _ g hg x hx), fun m n => by unfold exX exN; omega⟩
example (P : Fm Nat → Prop) (enc : Fm Nat → Fm Nat) : CacheE true P enc [] := by
  constructor
  all_goals intro e he
  all_goals simp at he

def exEq : Fm Nat := .pbc .eq 2 [(0, ⟨0, true⟩), (2, ⟨3, true⟩), (3, ⟨6, true⟩)]

/-- C46 (negative): the CNF of `0·a + 2·b + 3·c = 2` is false, although the constraint is satisfiable (the encoder is wrong, `C16_eq_false`) -/
theorem C46_eq_false : ∃ t, encodeAll false id exPb (Enc.ccOf .best) 9 (pbs exEq) 0 = some t ∧
    (∀ w, (cnf false exN 100 (encTab false exX t) ⟨.advanced, .tseitin, -1, 1000, 12⟩ exEq ⟨[], 0, ⟨false, 0, 0⟩⟩).1.eval w = false) ∧
    ∃ v, exEq.eval v = true := by
  obtain ⟨t, ht⟩ : ∃ t, encodeAll false id exPb (Enc.ccOf .best) 9 (pbs exEq) 0 = some t := Option.isSome_iff_exists.1 (by decide +kernel)
  refine ⟨t, ht, fun w => ?_, fun x => x == 3, by decide +kernel⟩
  have : ((encodeAll false id exPb (Enc.ccOf .best) 9 (pbs exEq) 0).map fun t =>
    (cnf false exN 100 (encTab false exX t) ⟨.advanced, .tseitin, -1, 1000, 12⟩ exEq ⟨[], 0, ⟨false, 0, 0⟩⟩).1) = some .fls := by decide +kernel
  rw [ht, Option.map_some, Option.some.injEq] at this
  rw [this]; rfl
end examples
end Verif.NF
