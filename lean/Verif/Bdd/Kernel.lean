import Verif.Bdd.Quant
/-
The operations of the kernel between two calls: invariant of the kernel, what an operation keeps, reference counts.
-/
namespace Verif.Bdd

/-- the tree of variable `v` (positive or negative) -/
def T.var (v : Nat) (b : Bool) : T := .node v (.leaf (!b)) (.leaf b)

/-- state of a kernel between two calls -/
structure Wf (P : Par) (k : K) : Prop where
  inv : Inv P k
  lv : Lv k
  qi : QI k
  vlen : k.vars.length = k.n
  vars : ∀ (v p q : Nat), k.vars[v]? = some (p, q) →
    (k.nd p).ref = maxref ∧ (k.nd q).ref = maxref ∧ Rep k.nd p (T.var v true) ∧ Rep k.nd q (T.var v false)
  st : k.stack = []
  /-- the variables are the first nodes of the table -/
  seg : ∀ (v p q : Nat), k.vars[v]? = some (p, q) → ∀ j, 2 ≤ j → j ≤ p ∨ j ≤ q →
    ∃ v' p' q' : Nat, k.vars[v']? = some (p', q') ∧ (j = p' ∨ j = q')

/-- protected by a reference count, not only by the stack (which every operation empties first) -/
abbrev HP (k : K) (i : Nat) : Prop := Prot (initRef k) i

/-- what an operation keeps: everything protected -/
structure Same (k k' : K) : Prop where
  n : k'.n = k.n
  refs : ∀ i, (k'.nd i).ref = (k.nd i).ref
  core : ∀ i, HP k i → (k'.nd i).core = (k.nd i).core
  vars : k'.vars = k.vars
  heap : k'.heap = k.heap
  surv : Surv k k'

theorem Keep.same {k k' : K} (h : Keep (initRef k) k') : Same k k' := ⟨h.n, h.refs, h.core, h.vars, h.heap, h.surv⟩

theorem Same.refl (k : K) : Same k k := ⟨rfl, fun _ => rfl, fun _ _ => rfl, rfl, rfl, .refl k⟩

theorem Same.rep {k k' : K} (h : Same k k') {i : Nat} {t : T} (hp : HP k i) (hr : Rep k.nd i t) :
    Rep k'.nd i t := Rep.prot (k := initRef k) h.core hr hp

theorem Same.prot {k k' : K} (h : Same k k') {i : Nat} (hp : HP k i) : HP k' i := by
  rcases hp with hp | hp
  · exact .inl hp
  · refine .inr ?_
    induction hp with
    | root hr =>
      refine .root ?_
      rcases hr with hr | hr
      · cases hr
      · exact .inr (h.refs _ ▸ hr)
    | low h1 h2 h3 ih =>
      obtain ⟨_, c2, _⟩ := core_iff.1 (h.core _ (.inr h1))
      exact .low ih h2 (c2.trans h3)
    | high h1 h2 h3 ih =>
      obtain ⟨_, c2, c3⟩ := core_iff.1 (h.core _ (.inr h1))
      have := Reach.high ih h2 (c2.trans h3)
      rw [show ((initRef k').nd _).high = _ from c3] at this
      exact this

theorem Same.trans {k k1 k2 : K} (h : Same k k1) (g : Same k1 k2) : Same k k2 :=
  ⟨g.n.trans h.n, fun i => (g.refs i).trans (h.refs i),
    fun i hp => (g.core i (h.prot hp)).trans (h.core i hp), g.vars.trans h.vars, g.heap.trans h.heap, h.surv.trans g.surv⟩

theorem Same.lv {k k' : K} (h : Same k k') (hv : Lv k) : Lv k' := by
  have h0 := (core_iff.1 (h.core 0 (.inl (by omega)))).1
  have h1 := (core_iff.1 (h.core 1 (.inl (by omega)))).1
  exact ⟨by rw [h0, h.n]; exact hv.1, by rw [h1, h.n]; exact hv.2⟩

theorem prot_ref {k : K} {i : Nat} (h : 0 < (k.nd i).ref) : Prot k i := .inr (.root (.inr h))
theorem hp_ref {k : K} {i : Nat} (h : 0 < (k.nd i).ref) : HP k i := prot_ref (k := initRef k) h

theorem Wf.step {P : Par} {k k' : K} (w : Wf P k) (hi : Inv P k') (hs : Same k k') (hq : QI k') (hst : k'.stack = []) :
    Wf P k' where
  inv := hi
  st := hst
  seg := by rw [hs.vars]; exact w.seg
  lv := hs.lv w.lv
  qi := hq
  vlen := by rw [hs.vars, hs.n]; exact w.vlen
  vars v p q h := by
    rw [hs.vars] at h
    obtain ⟨h1, h2, h3, h4⟩ := w.vars v p q h
    exact ⟨(hs.refs p).trans h1, (hs.refs q).trans h2, hs.rep (hp_ref (by rw [h1]; decide)) h3,
      hs.rep (hp_ref (by rw [h2]; decide)) h4⟩

theorem Inv.init {P : Par} {k : K} (hi : Inv P k) : Inv P (initRef k) := hi.setStack fun _ h => by cases h

theorem kapply_spec {P : Par} (hg : ∀ s, s < P.grow s) (op : Bop) {k : K} (w : Wf P k) {l r : Nat} {tl tr : T}
    (pl : HP k l) (pr : HP k r) (rl : Rep k.nd l tl) (rr : Rep k.nd r tr) :
    ∃ x k' t, kapply P op k l r = some (x, k') ∧ Wf P k' ∧ Same k k' ∧ Rep k'.nd x t ∧
      ∀ ρ, t.eval ρ = op.f (tl.eval ρ) (tr.eval ρ) := by
  obtain ⟨x, k', t, h1, h2, h3, h4, _, h5⟩ := applyRec_spec hg op (f := k.n + 1) (m := 0) w.inv.init w.lv pl pr rl rr
    (w.inv.ord rl) (w.inv.ord rr) (by show k.n < _; omega) (by omega) (by simp [initRef])
  exact ⟨x, k', t, h1, w.step h2 h3.same ⟨by rw [h3.qid]; exact w.qi.nonneg, by rw [h3.qid, h3.qset]; exact w.qi.le⟩ h3.stack,
    h3.same, h4, h5⟩

theorem knot_spec {P : Par} (hg : ∀ s, s < P.grow s) {k : K} (w : Wf P k) {r : Nat} {tr : T}
    (pr : HP k r) (rr : Rep k.nd r tr) :
    ∃ x k' t, knot P k r = some (x, k') ∧ Wf P k' ∧ Same k k' ∧ Rep k'.nd x t ∧ ∀ ρ, t.eval ρ = !tr.eval ρ := by
  obtain ⟨x, k', t, h1, h2, h3, h4, _, h5⟩ := notRec_spec hg (f := k.n + 1) (m := 0) w.inv.init pr rr
    (w.inv.ord rr) (by show k.n < _; omega) (by omega) (by simp [initRef])
  exact ⟨x, k', t, h1, w.step h2 h3.same ⟨by rw [h3.qid]; exact w.qi.nonneg, by rw [h3.qid, h3.qset]; exact w.qi.le⟩ h3.stack,
    h3.same, h4, h5⟩

theorem Inv.setQ {P : Par} {k : K} (hi : Inv P k) {a : Nat → Int} {b : Int} {c : Nat} :
    Inv P { k with qset := a, qid := b, qlast := c } :=
  ⟨hi.sz, hi.live, hi.uniq, hi.bmem, hi.blive, hi.fmem, hi.fnd, hi.rlive, hi.slive, hi.ap, hi.qu, hi.mi⟩

theorem krestrict_spec {P : Par} (hg : ∀ s, s < P.grow s) {k : K} (w : Wf P k) {r var : Nat} {tr tv : T}
    (pr : HP k r) (rr : Rep k.nd r tr) (pv : HP k var) (rv : Rep k.nd var tv) :
    ∃ x k' t, krestrict P k r var = some (x, k') ∧ Wf P k' ∧ Same k k' ∧ Rep k'.nd x t ∧
      ∀ ρ, t.eval ρ = tr.eval (over tv.cp ρ) := by
  unfold krestrict
  by_cases h2 : var < 2
  · rw [if_pos h2]
    refine ⟨r, k, tr, rfl, w, .refl k, rr, fun ρ => ?_⟩
    rw [rv.lt2 h2]
    exact congrArg (fun σ => T.eval σ tr) (funext fun v => by simp [over, T.cp])
  · rw [if_neg h2]
    obtain ⟨k1, q1, q2, q3, q4, q5, _⟩ := svar_spec (P := P) (f := k.n + 1) (k := { k with qid := k.qid + 1 }) (i := var)
      (m := 0) (t := tv) w.inv.setQ w.lv rv (w.inv.ord rv) (by show k.n < _; omega) (by omega)
    rw [q1]
    generalize ha : k1.qset = qs at *
    generalize hb : k1.qlast = ql at *
    subst q2
    have hq := w.qi
    obtain ⟨x, k', t, h1, h2', h3, h4, _, h5⟩ := restrictRec_spec hg (id := var * 8 + 1) (by omega) (tv := tv)
      (f := k.n + 1) (m := 0) (k := initRef { k with qset := qs, qid := k.qid + 1, qlast := ql }) w.inv.setQ.init
      ⟨by have := hq.nonneg; show 0 < k.qid + 1; omega,
        fun v hv => by
          have h := q3 v
          rw [hv] at h
          show ((qs v).natAbs : Int) ≠ k.qid + 1
          rw [h]
          have := hq.le v
          show ((k.qset v).natAbs : Int) ≠ _
          omega,
        fun v b hv => by
          have h := q3 v
          rw [hv] at h
          exact h,
        fun v b hv => (q4 v b hv).2⟩
      (by rw [show (var * 8 + 1) / 8 = var by omega]; exact pv)
      (by rw [show (var * 8 + 1) / 8 = var by omega]; exact rv) pr rr (w.inv.ord rr)
      (by show k.n < _; omega) (by omega) (by simp [initRef])
    have hsame : Same k k' := ⟨h3.n, h3.refs, h3.core, h3.vars, h3.heap, h3.surv⟩
    refine ⟨x, k', t, ?_, w.step h2' hsame ⟨?_, fun v => ?_⟩ h3.stack, hsame, h4, h5⟩
    · simp only [Option.bind_eq_bind, Option.bind_some]
      exact h1
    · rw [h3.qid]; have := hq.nonneg; show 0 ≤ k.qid + 1; omega
    · rw [h3.qset, h3.qid]
      show ((qs v).natAbs : Int) ≤ k.qid + 1
      rw [q3 v]
      have := hq.le v
      have := hq.nonneg
      cases tv.cp.lookup v with
      | none => show ((k.qset v).natAbs : Int) ≤ _; omega
      | some b => cases b <;> simp <;> omega

theorem kquant_spec {P : Par} (hg : ∀ s, s < P.grow s) {k : K} (w : Wf P k) {r var id : Nat} {tr tv : T} {op : Bop}
    (hid : id / 8 = var) (hop : qop id = op) (hisq : op.isQ)
    (pr : HP k r) (rr : Rep k.nd r tr) (pv : HP k var) (rv : Rep k.nd var tv) :
    ∃ x k' t, (if var < 2 then some (r, k)
      else do
        let k1 ← qvar (k.n + 1) { k with qid := k.qid + 1 } var
        quantRec P op id (k.n + 1) (initRef k1) r : Option (Nat × K)) = some (x, k') ∧ Wf P k' ∧ Same k k' ∧
      Rep k'.nd x t ∧ ∀ ρ, t.eval ρ = true ↔ Quant op tv.hs tr ρ := by
  by_cases h2 : var < 2
  · rw [if_pos h2]
    refine ⟨r, k, tr, rfl, w, .refl k, rr, fun ρ => ?_⟩
    rw [rv.lt2 h2]
    exact (Quant.indep hisq (w.inv.ord rr) (by simp [T.hs]) ρ).symm
  · rw [if_neg h2]
    obtain ⟨k1, q1, q2, q3, q4, q5⟩ := qvar_spec (P := P) (f := k.n + 1) (k := { k with qid := k.qid + 1 }) (i := var)
      (m := 0) (t := tv) rv (w.inv.ord rv) (by show k.n < _; omega) (by omega)
    rw [q1]
    generalize ha : k1.qset = qs at *
    generalize hb : k1.qlast = ql at *
    subst q2
    have hq := w.qi
    obtain ⟨x, k', t, h1, h2', h3, h4, _, h5⟩ := quantRec_spec hg (id := id) hop hisq (tv := tv)
      (f := k.n + 1) (m := 0) (k := initRef { k with qset := qs, qid := k.qid + 1, qlast := ql }) w.inv.setQ.init w.lv
      ⟨fun v => by
          show qs v = k.qid + 1 ↔ _
          rw [q3 v]
          by_cases hv : v ∈ tv.hs
          · simp [hv]
          · rw [if_neg hv]
            have := hq.le v
            constructor
            · intro h
              have h : k.qset v = k.qid + 1 := h
              omega
            · exact fun h => absurd h hv,
        fun v hv => (q4 v hv).2⟩
      (by rw [hid]; exact pv) (by rw [hid]; exact rv) pr rr (w.inv.ord rr)
      (by show k.n < _; omega) (by omega) (by simp [initRef])
    have hsame : Same k k' := ⟨h3.n, h3.refs, h3.core, h3.vars, h3.heap, h3.surv⟩
    refine ⟨x, k', t, ?_, w.step h2' hsame ⟨?_, fun v => ?_⟩ h3.stack, hsame, h4, h5⟩
    · simp only [Option.bind_eq_bind, Option.bind_some]
      exact h1
    · rw [h3.qid]; have := hq.nonneg; show 0 ≤ k.qid + 1; omega
    · rw [h3.qset, h3.qid]
      show ((qs v).natAbs : Int) ≤ k.qid + 1
      rw [q3 v]
      have := hq.le v
      have := hq.nonneg
      by_cases hv : v ∈ tv.hs
      · simp [hv]; omega
      · rw [if_neg hv]
        show ((k.qset v).natAbs : Int) ≤ _
        omega

theorem kexists_spec {P : Par} (hg : ∀ s, s < P.grow s) {k : K} (w : Wf P k) {r var : Nat} {tr tv : T}
    (pr : HP k r) (rr : Rep k.nd r tr) (pv : HP k var) (rv : Rep k.nd var tv) :
    ∃ x k' t, kexists P k r var = some (x, k') ∧ Wf P k' ∧ Same k k' ∧ Rep k'.nd x t ∧
      ∀ ρ, t.eval ρ = true ↔ Quant .or tv.hs tr ρ :=
  kquant_spec hg w (id := var * 8) (by omega) (by simp [qop]) (.inl rfl) pr rr pv rv

theorem kforAll_spec {P : Par} (hg : ∀ s, s < P.grow s) {k : K} (w : Wf P k) {r var : Nat} {tr tv : T}
    (pr : HP k r) (rr : Rep k.nd r tr) (pv : HP k var) (rv : Rep k.nd var tv) :
    ∃ x k' t, kforAll P k r var = some (x, k') ∧ Wf P k' ∧ Same k k' ∧ Rep k'.nd x t ∧
      ∀ ρ, t.eval ρ = true ↔ Quant .and tv.hs tr ρ :=
  kquant_spec hg w (id := var * 8 + 1) (by omega) (by
    unfold qop; rw [if_neg (by omega)]) (.inr rfl) pr rr pv rv

/-! ### Reference counts -/

/-- only the reference count of `x` differs -/
structure OnlyRef (k k' : K) (x : Nat) : Prop where
  eq : ∃ r, k' = setRef k x r

theorem setRef_core (k : K) (i r j : Nat) : ((setRef k i r).nd j).core = (k.nd j).core := by
  by_cases h : j = i
  · subst h; simp [setRef, Node.core]
  · simp [setRef, upd_ne _ _ h]

theorem setRef_ref (k : K) (i r j : Nat) : ((setRef k i r).nd j).ref = if j = i then r else (k.nd j).ref := by
  by_cases h : j = i
  · subst h; simp [setRef]
  · simp [setRef, upd_ne _ _ h, h]

theorem setRef_rep {k : K} {i r j : Nat} {t : T} : Rep (setRef k i r).nd j t ↔ Rep k.nd j t :=
  ⟨fun h => h.mono fun i _ _ => (setRef_core k _ r i).symm, fun h => h.mono fun i _ _ => setRef_core k _ r i⟩

theorem Inv.setRef {P : Par} {k : K} (hi : Inv P k) {x r : Nat} (hx : 2 ≤ x → (k.nd x).low ≠ none) :
    Inv P (setRef k x r) := by
  have hc : ∀ j, ((Bdd.setRef k x r).nd j).lvl = (k.nd j).lvl ∧ ((Bdd.setRef k x r).nd j).low = (k.nd j).low ∧
      ((Bdd.setRef k x r).nd j).high = (k.nd j).high := fun j => core_iff.1 (setRef_core k x r j)
  refine ⟨hi.sz, fun i h2 hl => ?_, fun i j h2 h3 hl hcc => ?_, fun i lo h2 hl => ?_, fun h i hm => ?_, fun i hm => ?_,
    hi.fnd, fun i h2 hr => ?_, fun i hm h2 => ?_, fun s => ?_, fun s => ?_, fun s => ?_⟩
  · rw [(hc i).2.1] at hl
    obtain ⟨h3, t, h4, h5⟩ := hi.live i h2 hl
    exact ⟨h3, t, setRef_rep.2 h4, h5⟩
  · rw [setRef_core, setRef_core] at hcc
    rw [(hc i).2.1] at hl
    exact hi.uniq i j h2 h3 hl hcc
  · rw [(hc i).2.1] at hl
    rw [(hc i).1, (hc i).2.2]
    exact hi.bmem i lo h2 hl
  · rw [(hc i).2.1]; exact hi.blive h i hm
  · rw [(hc i).2.1]; exact hi.fmem i hm
  · rw [(hc i).2.1]
    rw [setRef_ref] at hr
    by_cases h : i = x
    · rw [h] at h2 ⊢; exact hx h2
    · rw [if_neg h] at hr; exact hi.rlive i h2 hr
  · rw [(hc i).2.1]; exact hi.slive i hm h2
  · intro l hl
    obtain ⟨h1, h2⟩ := hi.ap s l hl
    refine ⟨fun op ho => ?_, fun hn => ?_⟩
    · obtain ⟨a, b, c, d1, d2, d3, d4⟩ := h1 op ho
      exact ⟨a, b, c, setRef_rep.2 d1, setRef_rep.2 d2, setRef_rep.2 d3, d4⟩
    · obtain ⟨a, b, d1, d2, d3⟩ := h2 hn
      exact ⟨a, b, setRef_rep.2 d1, setRef_rep.2 d2, d3⟩
  · intro l hl
    obtain ⟨a, b, c, d1, d2, d3, d4⟩ := hi.qu s l hl
    exact ⟨a, b, c, setRef_rep.2 d1, setRef_rep.2 d2, setRef_rep.2 d3, d4⟩
  · intro l hl hc
    obtain ⟨a, b, c, d1, d2, d3, d4⟩ := hi.mi s l hl hc
    exact ⟨a, b, c, setRef_rep.2 d1, setRef_rep.2 d2, setRef_rep.2 d3, d4⟩

theorem Wf.setRef {P : Par} {k : K} (w : Wf P k) {x r : Nat} (hx : 2 ≤ x → (k.nd x).low ≠ none)
    (hr : (k.nd x).ref = maxref → r = maxref) : Wf P (setRef k x r) where
  inv := w.inv.setRef hx
  st := w.st
  seg := w.seg
  lv := ⟨(core_iff.1 (setRef_core k x r 0)).1.trans w.lv.1, (core_iff.1 (setRef_core k x r 1)).1.trans w.lv.2⟩
  qi := ⟨w.qi.nonneg, w.qi.le⟩
  vlen := w.vlen
  vars v p q h := by
    obtain ⟨h1, h2, h3, h4⟩ := w.vars v p q h
    refine ⟨?_, ?_, setRef_rep.2 h3, setRef_rep.2 h4⟩
    · rw [setRef_ref]
      by_cases h : p = x
      · rw [if_pos h]; exact hr (h ▸ h1)
      · rw [if_neg h]; exact h1
    · rw [setRef_ref]
      by_cases h : q = x
      · rw [if_pos h]; exact hr (h ▸ h2)
      · rw [if_neg h]; exact h2

/-- the references owned by the callers are counted (a saturated count stays) -/
def Owned (k : K) (own : Nat → Nat) : Prop := 
  ∀ i, 2 ≤ i → (k.nd i).ref ≤ maxref ∧ ((k.nd i).ref = maxref ∨ own i ≤ (k.nd i).ref)

/-- one owner more (less) -/
def inc (own : Nat → Nat) (x : Nat) : Nat → Nat := upd own x (own x + 1)
def dec (own : Nat → Nat) (x : Nat) : Nat → Nat := upd own x (own x - 1)

theorem Owned.same {k k' : K} {own : Nat → Nat} (h : Owned k own) (hs : Same k k') : Owned k' own := fun i h2 => by
  rw [hs.refs]; exact h i h2

theorem Owned.prot {k : K} {own : Nat → Nat} (h : Owned k own) {i : Nat} (ho : 0 < own i) : HP k i := by
  by_cases h2 : i < 2
  · exact .inl h2
  · refine hp_ref ?_
    rcases (h i (by omega)).2 with h | h
    · rw [h]; decide
    · omega

theorem addRef_spec {P : Par} {k : K} (w : Wf P k) {own : Nat → Nat} (ho : Owned k own) {x : Nat} {t : T}
    (hx : Rep k.nd x t) : ∃ k', addRef k x = some k' ∧ Wf P k' ∧ Owned k' (inc own x) ∧ k'.n = k.n ∧ k'.vars = k.vars ∧
      k'.heap = k.heap ∧ k'.misc = k.misc ∧ ∀ i t, Rep k'.nd i t ↔ Rep k.nd i t := by
  unfold addRef
  by_cases h2 : x < 2
  · rw [if_pos h2]
    refine ⟨k, rfl, w, fun i hi => ?_, rfl, rfl, rfl, rfl, fun _ _ => Iff.rfl⟩
    unfold inc
    rw [upd_ne _ _ (by omega)]
    exact ho i hi
  · have hl : (k.nd x).low ≠ none := hx.live (by omega)
    rw [if_neg h2, if_neg (by have := (w.inv.live x (by omega) hl).1; omega), if_neg hl]
    refine ⟨_, rfl, w.setRef (fun _ => hl) (fun h => by rw [h]; rfl), fun i hi => ?_, rfl, rfl, rfl, rfl,
      fun _ _ => setRef_rep⟩
    rw [setRef_ref]
    unfold inc
    by_cases h : i = x
    · subst h
      rw [if_pos rfl, upd_self]
      have := ho i hi
      split
      · omega
      · omega
    · rw [if_neg h, upd_ne _ _ h]; exact ho i hi

theorem delRef_spec {P : Par} {k : K} (w : Wf P k) {own : Nat → Nat} (ho : Owned k own) {x : Nat}
    (hx : 0 < own x ∨ (k.nd x).ref = maxref) :
    ∃ k', delRef k x = some k' ∧ Wf P k' ∧ Owned k' (dec own x) ∧ k'.n = k.n ∧ k'.vars = k.vars ∧
      k'.heap = k.heap ∧ k'.misc = k.misc ∧ ∀ i t, Rep k'.nd i t ↔ Rep k.nd i t := by
  unfold delRef
  by_cases h2 : x < 2
  · rw [if_pos h2]
    refine ⟨k, rfl, w, fun i hi => ?_, rfl, rfl, rfl, rfl, fun _ _ => Iff.rfl⟩
    unfold dec
    rw [upd_ne _ _ (by omega)]
    exact ho i hi
  · have hm : 0 < maxref := by decide
    have href : 0 < (k.nd x).ref := by
      rcases hx with hx | hx
      · rcases (ho x (by omega)).2 with h | h <;> omega
      · omega
    have hl : (k.nd x).low ≠ none := w.inv.rlive x (by omega) href
    rw [if_neg h2, if_neg (by have := (w.inv.live x (by omega) hl).1; omega), if_neg hl, if_neg (by omega)]
    refine ⟨_, rfl, w.setRef (fun _ => hl) (fun h => by rw [if_pos h]; exact h), fun i hi => ?_, rfl, rfl, rfl, rfl,
      fun _ _ => setRef_rep⟩
    rw [setRef_ref]
    unfold dec
    by_cases h : i = x
    · subst h
      rw [if_pos rfl, upd_self]
      have := ho i hi
      split
      · omega
      · omega
    · rw [if_neg h, upd_ne _ _ h]; exact ho i hi

/-! ### New kernels -/

/-- the nodes in use are the first ones, and the free list is sorted -/
structure Low (k : K) : Prop where
  fs : k.free.Pairwise (· < ·)
  ff : ∀ i, 2 ≤ i → i < k.size → (k.nd i).low = none → i ∈ k.free
  seg : ∀ i, 2 ≤ i → (k.nd i).low ≠ none → ∀ j, 2 ≤ j → j < i → (k.nd j).low ≠ none

theorem rehash_low {P : Par} {k k' : K} (h : Low k) (hn : ∀ i, 2 ≤ i → ((k'.nd i).low = none ↔ (k.nd i).low = none)) :
    Low (rehash P k') where
  fs := List.Pairwise.filter _ List.pairwise_lt_range'
  ff i h2 hs hl := by
    have hs : i < k'.size := hs
    exact rehash_free.2 ⟨⟨h2, by omega⟩, hl⟩
  seg i h2 hl j h3 hj := fun e => h.seg i h2 (fun e' => hl ((hn i h2).2 e')) j h3 hj ((hn j h3).1 e)

theorem room_low {P : Par} {k : K} (hi : Inv P k) (h : Low k) (hp : ∀ i, 2 ≤ i → (k.nd i).low ≠ none → Prot k i) :
    Low (room P k) ∧ ∀ i, 2 ≤ i → (((room P k).nd i).low = none ↔ (k.nd i).low = none) := by
  unfold room
  by_cases hf : k.free = []
  · rw [if_pos hf]
    obtain ⟨g1, g2⟩ := gbc_spec hi
    have hg : ∀ i, 2 ≤ i → (((gbc P k).nd i).low = none ↔ (k.nd i).low = none) := fun i h2 => by
      constructor
      · intro e
        by_cases hl : (k.nd i).low = none
        · exact hl
        · rw [← (core_iff.1 (g2.keep.core i (hp i h2 hl))).2.1]; exact e
      · intro e
        by_cases hl : ((gbc P k).nd i).low = none
        · exact hl
        · rw [(core_iff.1 (g2.sub i h2 hl)).2.1]; exact e
    have hL : Low (gbc P k) := by
      have := rehash_low (P := P) (k := k) (k' := { k with
        nd := fun i => if 2 ≤ i ∧ marks k i = false then { k.nd i with low := none } else k.nd i }) h hg
      exact ⟨this.fs, this.ff, this.seg⟩
    dsimp only
    split
    · have hr : ∀ i, 2 ≤ i → (((if i < (gbc P k).size then (gbc P k).nd i else {} : Node)).low = none ↔ ((gbc P k).nd i).low = none) :=
        fun i h2 => by
          by_cases hs : i < (gbc P k).size
          · rw [if_pos hs]
          · rw [if_neg hs]
            refine ⟨fun _ => ?_, fun _ => rfl⟩
            by_cases hl : ((gbc P k).nd i).low = none
            · exact hl
            · exact absurd (g1.live i h2 hl).1 hs
      exact ⟨rehash_low hL hr, fun i h2 => (hr i h2).trans (hg i h2)⟩
    · exact ⟨hL, hg⟩
  · rw [if_neg hf]
    exact ⟨h, fun _ _ => Iff.rfl⟩

theorem makeNode_low {P : Par} {k k' : K} {lvl lo hh x : Nat} (hg : ∀ s, s < P.grow s) (hi : Inv P k) (h : Low k)
    (hp : ∀ i, 2 ≤ i → (k.nd i).low ≠ none → Prot k i) (hm : makeNode P k lvl lo hh = some (x, k')) :
    Low k' ∧ ∀ i, 2 ≤ i → (k'.nd i).low ≠ none → (k.nd i).low ≠ none ∨ i = x := by
  unfold makeNode at hm
  by_cases hne : lo = hh
  · rw [if_pos hne] at hm
    cases hm
    exact ⟨h, fun _ _ hl => .inl hl⟩
  · rw [if_neg hne] at hm
    cases hf : findNode P k lvl lo hh with
    | some i =>
      rw [hf] at hm
      cases hm
      exact ⟨h, fun _ _ hl => .inl hl⟩
    | none =>
      rw [hf] at hm
      dsimp only at hm
      obtain ⟨r1, r2⟩ := room_low (P := P) hi h hp
      have hri : Inv P (room P k) := by
        refine (room_spec hg hi (lvl := lvl) (lo := lo) (h := hh) ?_).1
        intro i h2 he
        simp only [Node.core, Prod.mk.injEq] at he
        obtain ⟨c1, c2, c3⟩ := he
        have := List.find?_eq_none.1 hf i (by
          have := hi.bmem i lo h2 c2
          rw [c1, c3] at this
          exact this)
        simp [c1, c2, c3] at this
      generalize room P k = k1 at *
      unfold alloc at hm
      cases hfr : k1.free with
      | nil => rw [hfr] at hm; cases hm
      | cons p ps =>
        rw [hfr] at hm
        obtain ⟨rfl, rfl⟩ : p = x ∧ _ = k' := by simpa using hm
        obtain ⟨p2, psz, pl⟩ := hri.fmem p (by rw [hfr]; simp)
        have hs := r1.fs
        rw [hfr] at hs
        obtain ⟨s1, s2⟩ := List.pairwise_cons.1 hs
        have hx : ∀ i, i ≠ p → upd k1.nd p { ref := (k1.nd p).ref, lvl := lvl, low := some lo, high := hh } i = k1.nd i := fun i e => upd_ne _ _ e
        refine ⟨⟨s2, fun i h2 hsz hl => ?_, fun i h2 hl j h3 hj => ?_⟩, fun i h2 hl => ?_⟩
        · dsimp only at hl hsz
          by_cases e : i = p
          · subst e; rw [upd_self] at hl; cases hl
          · rw [hx i e] at hl
            have := r1.ff i h2 hsz hl
            rw [hfr] at this
            exact (List.mem_cons.1 this).resolve_left e
        · dsimp only at hl ⊢
          by_cases ej : j = p
          · subst ej; rw [upd_self]; simp
          · rw [hx j ej]
            by_cases e : i = p
            · intro hj0
              have := r1.ff j h3 (by omega) hj0
              rw [hfr] at this
              have := s1 j ((List.mem_cons.1 this).resolve_left ej)
              omega
            · rw [hx i e] at hl
              exact r1.seg i h2 hl j h3 hj
        · dsimp only at hl
          by_cases e : i = p
          · exact .inr e
          · rw [hx i e] at hl
            exact .inl fun e' => hl ((r2 i h2).2 e')

structure Ini (P : Par) (k : K) : Prop where
  inv : Inv P k
  low : Low k
  lit : ∀ i, 2 ≤ i → (k.nd i).low ≠ none → ∃ v p q : Nat, k.vars[v]? = some (p, q) ∧ (i = p ∨ i = q)
  stk : k.stack = []
  vars : ∀ (v p q : Nat), k.vars[v]? = some (p, q) →
    (k.nd p).ref = maxref ∧ (k.nd q).ref = maxref ∧ Rep k.nd p (T.var v true) ∧ Rep k.nd q (T.var v false)
  heap : k.heap = []
  mi0 : ∀ s r, (k.misc s).a = some r → 9 ≤ (k.misc s).c
  rmax : ∀ i, (k.nd i).ref ≤ maxref

theorem var_tree {n m v : Nat} {t : T} (b : Bool) (ho : Ord n m t) (hv : v < n)
    (h : ∀ ρ : Nat → Bool, t.eval ρ = if ρ v then b else !b) : t = T.var v b := by
  refine ho.canon (m' := 0) _ _ ⟨by omega, hv, ?_, trivial, trivial⟩ fun ρ => ?_
  · cases b <;> simp
  · rw [h]
    simp only [T.var, T.eval]

theorem mkVars_spec {P : Par} (hg : ∀ s, s < P.grow s) : ∀ {m : Nat} {k : K}, Ini P k → k.vars.length + m = k.n →
    ∃ k', mkVars P m k = some k' ∧ Ini P k' ∧ k'.n = k.n ∧ k'.vars.length = k.n
  | 0, k, h, hm => ⟨k, rfl, h, rfl, by omega⟩
  | m + 1, k, h, hm => by
    obtain ⟨p, k1, tp, a1, a2, a3, a4, a5, a6⟩ := makeNode_spec hg h.inv (lvl := k.vars.length) (lo := 0) (h := 1)
      (.inl (by omega)) (.inl (by omega)) .ff .tt (by omega) trivial trivial
    have e1 : tp = T.var k.vars.length true := var_tree true a5 (by omega) a6
    have s1 : k1.stack = [] := a3.stack.trans h.stk
    have p1 : push k1 p = some { k1 with stack := [p] } := by
      rw [push_eq (by rw [s1]; simp), s1]
    have i1 : Inv P { k1 with stack := [p] } := by
      have := a2.push a4
      rw [s1] at this
      exact this
    obtain ⟨q, k3, tq, b1, b2, b3, b4, b5, b6⟩ := makeNode_spec hg i1 (lvl := k.vars.length) (lo := 1) (h := 0)
      (.inl (by omega)) (.inl (by omega)) .tt .ff (by show _ < k1.n; rw [a3.n]; omega) trivial trivial
    have e2 : tq = T.var k.vars.length false := var_tree false b5 (by show _ < k1.n; rw [a3.n]; omega) b6
    subst e1 e2
    have n3 : k3.n = k.n := b3.n.trans a3.n
    have v3 : k3.vars = k.vars := b3.vars.trans a3.vars
    have hp3 : Rep k3.nd p (T.var k.vars.length true) :=
      b3.rep (k := { k1 with stack := [p] }) (.inr (.root (.inl List.mem_cons_self))) a4
    have keepref : ∀ i, (k3.nd i).ref = (k.nd i).ref := fun i => (b3.refs i).trans (a3.refs i)
    have keeprep : ∀ i t, (k.nd i).ref = maxref → Rep k.nd i t → Rep k3.nd i t := fun i t hr ht => by
      have h1 := a3.rep (prot_ref (by rw [hr]; decide)) ht
      exact b3.rep (k := { k1 with stack := [p] }) (prot_ref (by
        show 0 < (k1.nd i).ref; rw [a3.refs, hr]; decide)) h1
    have i4 : Inv P { k3 with stack := k3.stack.drop 1, vars := k3.vars ++ [(p, q)] } := by
      have := b2.setStack (S := k3.stack.drop 1) fun i hm h2 => b2.slive i (List.mem_of_mem_drop hm) h2
      exact ⟨this.sz, this.live, this.uniq, this.bmem, this.blive, this.fmem, this.fnd, this.rlive, this.slive, this.ap,
        this.qu, this.mi⟩
    have hst : k3.stack.drop 1 = [] := by rw [b3.stack]; rfl
    have i5 := (i4.setRef (x := p) (r := maxref) fun h2 => hp3.live h2).setRef (x := q) (r := maxref)
      fun h2 => (setRef_rep.2 b4 : Rep (Bdd.setRef { k3 with stack := k3.stack.drop 1, vars := k3.vars ++ [(p, q)] } p
        maxref).nd q _).live h2
    have hpr : ∀ i, 2 ≤ i → (k.nd i).low ≠ none → 0 < (k.nd i).ref := fun i h2 hl => by
      obtain ⟨v, a, b, hv, hab⟩ := h.lit i h2 hl
      obtain ⟨d1, d2, _⟩ := h.vars v a b hv
      rcases hab with rfl | rfl
      · rw [d1]; decide
      · rw [d2]; decide
    obtain ⟨l1, l1'⟩ := makeNode_low hg h.inv h.low (fun i h2 hl => prot_ref (hpr i h2 hl)) a1
    obtain ⟨l3, l3'⟩ := makeNode_low (k := { k1 with stack := [p] }) hg i1 ⟨l1.fs, l1.ff, l1.seg⟩ (fun i h2 hl => by
      rcases l1' i h2 hl with g | g
      · exact prot_ref (by show 0 < (k1.nd i).ref; rw [a3.refs]; exact hpr i h2 g)
      · exact .inr (.root (.inl (by rw [g]; exact List.mem_cons_self)))) b1
    have hcore5 : ∀ i, ((setRef (setRef { k3 with stack := k3.stack.drop 1, vars := k3.vars ++ [(p, q)] } p maxref) q maxref).nd i).low =
        (k3.nd i).low := fun i => by
      rw [(core_iff.1 (setRef_core _ q maxref i)).2.1, (core_iff.1 (setRef_core _ p maxref i)).2.1]
    have hlow5 : Low (setRef (setRef { k3 with stack := k3.stack.drop 1, vars := k3.vars ++ [(p, q)] } p maxref) q maxref) :=
      ⟨l3.fs, fun i h2 hs hl => l3.ff i h2 hs (by rw [hcore5] at hl; exact hl), fun i h2 hl j h3 hj => by
        rw [hcore5] at hl ⊢; exact l3.seg i h2 hl j h3 hj⟩
    have hlit5 : ∀ i, 2 ≤ i → ((setRef (setRef { k3 with stack := k3.stack.drop 1, vars := k3.vars ++ [(p, q)] } p maxref) q maxref).nd i).low ≠ none →
        ∃ v a b : Nat, (k3.vars ++ [(p, q)])[v]? = some (a, b) ∧ (i = a ∨ i = b) := fun i h2 hl => by
      rw [hcore5] at hl
      have hlast : (k3.vars ++ [(p, q)])[k3.vars.length]? = some (p, q) := by simp
      rcases l3' i h2 hl with g | g
      · rcases l1' i h2 g with g | g
        · obtain ⟨v, a, b, hv, hab⟩ := h.lit i h2 g
          refine ⟨v, a, b, ?_, hab⟩
          rw [v3, List.getElem?_append_left (List.getElem?_eq_some_iff.1 hv).1]
          exact hv
        · exact ⟨_, p, q, hlast, .inl g⟩
      · exact ⟨_, p, q, hlast, .inr g⟩
    obtain ⟨k', c1, c2, c3, c4⟩ := mkVars_spec hg (m := m) (k := setRef (setRef
        { k3 with stack := k3.stack.drop 1, vars := k3.vars ++ [(p, q)] } p maxref) q maxref)
      ⟨i5, hlow5, hlit5, hst, fun v a b hv => by
        have hrep : ∀ i t, Rep k3.nd i t → Rep (setRef (setRef
            { k3 with stack := k3.stack.drop 1, vars := k3.vars ++ [(p, q)] } p maxref) q maxref).nd i t :=
          fun i t ht => setRef_rep.2 (setRef_rep.2 ht)
        have href : ∀ i, ((k3.nd i).ref = maxref ∨ i = p ∨ i = q) → ((setRef (setRef
            { k3 with stack := k3.stack.drop 1, vars := k3.vars ++ [(p, q)] } p maxref) q maxref).nd i).ref = maxref := by
          intro i hi
          rw [setRef_ref, setRef_ref]
          by_cases h1 : i = q
          · rw [if_pos h1]
          · by_cases h2 : i = p
            · rw [if_neg h1, if_pos h2]
            · rw [if_neg h1, if_neg h2]
              exact hi.resolve_right (by simp [h1, h2])
        have hv : (k3.vars ++ [(p, q)])[v]? = some (a, b) := hv
        rw [v3] at hv
        by_cases hl : v < k.vars.length
        · rw [List.getElem?_append_left hl] at hv
          obtain ⟨d1, d2, d3, d4⟩ := h.vars v a b hv
          exact ⟨href _ (.inl ((keepref a).trans d1)), href _ (.inl ((keepref b).trans d2)), hrep _ _ (keeprep _ _ d1 d3),
            hrep _ _ (keeprep _ _ d2 d4)⟩
        · rw [List.getElem?_append_right (by omega)] at hv
          have hv0 : v = k.vars.length := by
            by_cases hz : v = k.vars.length
            · exact hz
            · rw [show v - k.vars.length = (v - k.vars.length - 1) + 1 by omega] at hv
              simp at hv
          rw [hv0] at hv ⊢
          simp at hv
          obtain ⟨rfl, rfl⟩ := hv
          exact ⟨href _ (.inr (.inl rfl)), href _ (.inr (.inr rfl)), hrep _ _ hp3, hrep _ _ b4⟩,
        b3.heap.trans (a3.heap.trans h.heap), fun s r hr => Nat.le_of_not_lt fun hc => by
          have hsv : Surv k k3 := a3.surv.trans b3.surv
          obtain ⟨e1, _⟩ := hsv s r hr hc
          have := h.mi0 s r (e1 ▸ hr)
          have hc : (k3.misc s).c < 9 := hc
          rw [e1] at hc
          omega, fun i => by
          rw [setRef_ref, setRef_ref]
          show (if i = q then maxref else if i = p then maxref else (k3.nd i).ref) ≤ maxref
          rw [keepref]
          have := h.rmax i
          split
          · omega
          · split <;> omega⟩
      (by show (k3.vars ++ [(p, q)]).length + m = k3.n; rw [v3, n3]; simp; omega)
    refine ⟨k', ?_, c2, c3.trans n3, c4.trans n3⟩
    unfold mkVars
    simp only [Option.bind_eq_bind, a1, Option.bind_some, p1, b1]
    exact c1

theorem Inv.setLvl {P : Par} {k : K} (hi : Inv P k) {x l : Nat} (hx : x < 2) : Inv P (setLvl k x l) ∧
    ∀ i t, Rep k.nd i t → Rep (setLvl k x l).nd i t := by
  have hnd : ∀ i, 2 ≤ i → (Bdd.setLvl k x l).nd i = k.nd i := fun i h => upd_ne _ _ (by omega)
  have hr : ∀ i t, Rep k.nd i t → Rep (Bdd.setLvl k x l).nd i t := fun i t h => h.mono fun i h2 _ => by rw [hnd i h2]
  refine ⟨⟨hi.sz, fun i h2 hl => ?_, fun i j h2 h3 hl hcc => ?_, fun i lo h2 hl => ?_, fun h i hm => ?_, fun i hm => ?_,
    hi.fnd, fun i h2 hrr => ?_, fun i hm h2 => ?_, fun s => ?_, fun s => ?_, fun s => ?_⟩, hr⟩
  · rw [hnd i h2] at hl
    obtain ⟨h3, t, h4, h5⟩ := hi.live i h2 hl
    exact ⟨h3, t, hr _ _ h4, h5⟩
  · rw [hnd i h2] at hl
    rw [hnd i h2, hnd j h3] at hcc
    exact hi.uniq i j h2 h3 hl hcc
  · rw [hnd i h2] at hl ⊢
    exact hi.bmem i lo h2 hl
  · have := hi.blive h i hm
    rw [hnd i this.1]; exact this
  · have := hi.fmem i hm
    rw [hnd i this.1]; exact this
  · rw [hnd i h2] at hrr ⊢; exact hi.rlive i h2 hrr
  · rw [hnd i h2]; exact hi.slive i hm h2
  · intro l hl
    obtain ⟨h1, h2⟩ := hi.ap s l hl
    refine ⟨fun op ho => ?_, fun hn => ?_⟩
    · obtain ⟨a, b, c, d1, d2, d3, d4⟩ := h1 op ho
      exact ⟨a, b, c, hr _ _ d1, hr _ _ d2, hr _ _ d3, d4⟩
    · obtain ⟨a, b, d1, d2, d3⟩ := h2 hn
      exact ⟨a, b, hr _ _ d1, hr _ _ d2, d3⟩
  · intro l hl
    obtain ⟨a, b, c, d1, d2, d3, d4⟩ := hi.qu s l hl
    exact ⟨a, b, c, hr _ _ d1, hr _ _ d2, hr _ _ d3, d4⟩
  · intro l hl hc
    obtain ⟨a, b, c, d1, d2, d3, d4⟩ := hi.mi s l hl hc
    exact ⟨a, b, c, hr _ _ d1, hr _ _ d2, hr _ _ d3, d4⟩

theorem setLvl_ref (k : K) (x l i : Nat) : ((setLvl k x l).nd i).ref = (k.nd i).ref := by
  by_cases h : i = x
  · subst h; simp [setLvl]
  · simp [setLvl, upd_ne _ _ h]

theorem newKernel_spec {P : Par} (hg : ∀ s, s < P.grow s) (num sz : Nat) (hsz : 2 ≤ sz) :
    ∃ k, newKernel P num sz = some k ∧ Wf P k ∧ Owned k (fun _ => 0) ∧ k.n = num ∧ k.heap = [] ∧
      ∀ s r, (k.misc s).a = some r → 9 ≤ (k.misc s).c := by
  unfold newKernel
  obtain ⟨k1, h1, h2, h3, h4⟩ := mkVars_spec hg (m := num) (k := {
    n := num, size := sz
    nd := fun i => if i = 0 then { ref := maxref, low := some 0, high := 0 }
      else if i = 1 then { ref := maxref, low := some 1, high := 1 } else {}
    bucket := fun _ => [], free := List.range' 2 (sz - 2), stack := []
    apply := fun _ => {}, quant := fun _ => {}, misc := fun _ => {}
    qset := fun _ => 0, qid := 0, qlast := 0, vars := [], heap := [], gcs := 0 }) (by
      have hlow : ∀ i, 2 ≤ i → (if i = 0 then ({ ref := maxref, low := some 0, high := 0 } : Node)
        else if i = 1 then { ref := maxref, low := some 1, high := 1 } else {}) = {} := fun i h => by
        rw [if_neg (by omega), if_neg (by omega)]
      refine ⟨⟨hsz, fun i h2 hl => ?_, fun i j h2 h3 hl _ => ?_, fun i lo h2 hl => ?_, fun h i hm => ?_, fun i hm => ?_,
        List.nodup_range', fun i h2 hr => ?_, fun i hm => ?_, fun s l hl => ?_, fun s l hl => ?_, fun s l hl => ?_⟩,
        ⟨List.pairwise_lt_range', fun i h2 hs _ => by have hs : i < sz := hs; simp; omega, fun i h2 hl => absurd (by simp only [hlow i h2]) hl⟩,
        fun i h2 hl => absurd (by simp only [hlow i h2]) hl, rfl,
        fun v p q h => ?_, rfl, fun s r hr => (by cases hr), fun i => ?_⟩
      · exact absurd (by simp only [hlow i h2]) hl
      · exact absurd (by simp only [hlow i h2]) hl
      · simp only [hlow i h2] at hl; cases hl
      · cases hm
      · have := List.mem_range'_1.1 hm
        refine ⟨by omega, by show i < sz; omega, by simp only [hlow i this.1]⟩
      · simp only [hlow i h2] at hr; cases hr
      · cases hm
      · cases hl
      · cases hl
      · cases hl
      · simp at h
      · dsimp only
        split
        · exact Nat.le_refl _
        · split
          · exact Nat.le_refl _
          · exact Nat.zero_le _) (by simp)
  simp only [Option.bind_eq_bind, h1, Option.bind_some]
  obtain ⟨i2, r2⟩ := h2.inv.setLvl (x := 0) (l := num) (by omega)
  obtain ⟨i3, r3⟩ := i2.setLvl (x := 1) (l := num) (by omega)
  refine ⟨_, rfl, ⟨i3.setQ (a := fun _ => 0) (b := 0) (c := k1.qlast), ⟨?_, ?_⟩, ⟨by simp, by simp⟩, ?_, ?_, h2.stk, ?_⟩,
    fun i _ => ⟨?_, .inr (Nat.zero_le _)⟩, h3, h2.heap, h2.mi0⟩
  · show ((setLvl (setLvl k1 0 num) 1 num).nd 0).lvl = k1.n
    rw [h3]; simp [setLvl, upd]
  · show ((setLvl (setLvl k1 0 num) 1 num).nd 1).lvl = k1.n
    rw [h3]; simp [setLvl, upd]
  · show k1.vars.length = k1.n
    rw [h4, h3]
  · intro v p q h
    obtain ⟨d1, d2, d3, d4⟩ := h2.vars v p q h
    exact ⟨by show ((setLvl (setLvl k1 0 num) 1 num).nd p).ref = _; rw [setLvl_ref, setLvl_ref]; exact d1,
      by show ((setLvl (setLvl k1 0 num) 1 num).nd q).ref = _; rw [setLvl_ref, setLvl_ref]; exact d2,
      r3 _ _ (r2 _ _ d3), r3 _ _ (r2 _ _ d4)⟩
  · intro v p q h j hj hjp
    obtain ⟨d1, d2, d3, d4⟩ := h2.vars v p q h
    have ge : ∀ {i : Nat} {v : Nat} {b : Bool}, Rep k1.nd i (T.var v b) → 2 ≤ i := fun {i v b} hr => by
      by_cases hi : 2 ≤ i
      · exact hi
      · have := hr.lt2 (by omega)
        cases this
    refine h2.lit j hj ?_
    have key : ∀ i, 2 ≤ i → (k1.nd i).low ≠ none → j ≤ i → (k1.nd j).low ≠ none := fun i hi hl hji => by
      rcases Nat.lt_or_ge j i with g | g
      · exact h2.low.seg i hi hl j hj g
      · have : i = j := by omega
        exact this ▸ hl
    rcases hjp with g | g
    · exact key p (ge d3) (d3.live (ge d3)) g
    · exact key q (ge d4) (d4.live (ge d4)) g
  · show ((setLvl (setLvl k1 0 num) 1 num).nd i).ref ≤ _
    rw [setLvl_ref, setLvl_ref]
    exact h2.rmax i

end Verif.Bdd
