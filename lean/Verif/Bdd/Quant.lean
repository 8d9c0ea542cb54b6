import Verif.Bdd.Ops
/-
Quantification and the variable tables of restriction and quantification.
-/
namespace Verif.Bdd

theorem pushApply_spec {P : Par} (hg : ∀ s, s < P.grow s) {op : Bop} {k : K} (hi : Inv P k) (hv : Lv k) {S : List Nat}
    {a b m : Nat} (hs : k.stack = a :: S) (hlen : k.stack.length < 2 * m) (hm : m ≤ k.n) {ta tb : T}
    (ha : Rep k.nd a ta) (hb : Rep k.nd b tb) (oa : Ord k.n m ta) (ob : Ord k.n m tb) :
    ∃ x k' t, pushApply P op k b = some (x, k') ∧ Inv P k' ∧ Keep { k with stack := S } k' ∧ Rep k'.nd x t ∧
      Ord k.n m t ∧ ∀ ρ, t.eval ρ = op.f (ta.eval ρ) (tb.eval ρ) := by
  have pa : Prot { k with stack := b :: k.stack } a := .inr (.root (.inl (by simp [hs])))
  have pb : Prot { k with stack := b :: k.stack } b := .top
  obtain ⟨x, k', t, m1, m2, m3, m4, m5, m6⟩ := applyRec_spec hg op (f := k.n + 1) (hi.push hb) hv pa pb ha hb oa ob
    (by show k.n < k.n + 1 + m; omega) hm (by simp only [List.length_cons]; omega)
  have m3s : k'.stack = b :: a :: S := by rw [m3.stack, ← hs]
  refine ⟨x, pop2 k', t, ?_, ?_, ?_, m4, m5, m6⟩
  · unfold pushApply
    rw [push_eq (by omega)]
    have r2 : readRef { k with stack := b :: k.stack } 2 = some a := by simp [readRef, hs]
    have r1 : readRef { k with stack := b :: k.stack } 1 = some b := by simp [readRef]
    simp only [Option.bind_eq_bind, Option.bind_some, r1, r2, m1]
    rfl
  · exact m2.setStack fun i hm h2 => m2.slive i (List.mem_of_mem_drop hm) h2
  · refine ⟨m3.n, by simp [pop2, m3s], m3.refs, fun i hp => m3.core i (hp.pop ?_), m3.vars, m3.qset, m3.qid, m3.qlast,
      m3.heap, m3.gcs, m3.surv⟩
    intro x hx
    simp [hs, hx]

/-! ### Quantified functions -/

/-- only disjunction and conjunction quantify -/
def Bop.isQ (op : Bop) : Prop := op = .or ∨ op = .and

theorem Quant.local {op : Bop} (hop : op.isQ) {S : List Nat} {n m : Nat} {t : T} (ho : Ord n m t) {ρ σ : Nat → Bool}
    (h : ∀ v, m ≤ v → ρ v = σ v) (hq : Quant op S t ρ) : Quant op S t σ := by
  rcases hop with rfl | rfl
  · obtain ⟨τ, h1, h2⟩ := hq
    refine ⟨fun v => if m ≤ v then τ v else σ v, fun v hv => ?_, ?_⟩
    · show (if m ≤ v then τ v else σ v) = σ v
      by_cases hm : m ≤ v
      · rw [if_pos hm, h1 v hv, h v hm]
      · rw [if_neg hm]
    · rw [← h2]
      exact ho.agree fun v hv _ => by rw [if_pos hv]
  · intro τ h1
    rw [show t.eval τ = t.eval (fun v => if m ≤ v then τ v else ρ v) from
      ho.agree fun v hv _ => by rw [if_pos hv]]
    refine hq _ fun v hv => ?_
    by_cases hm : m ≤ v
    · rw [if_pos hm, h1 v hv, h v hm]
    · rw [if_neg hm]

theorem Quant.indep {op : Bop} (hop : op.isQ) {S : List Nat} {n m : Nat} {t : T} (ho : Ord n m t)
    (hS : ∀ v ∈ S, v < m) (ρ : Nat → Bool) : Quant op S t ρ ↔ t.eval ρ = true := by
  have hh : ∀ σ : Nat → Bool, (∀ v, v ∉ S → σ v = ρ v) → t.eval σ = t.eval ρ := fun σ h =>
    ho.agree fun v hv _ => h v fun hm => by have := hS v hm; omega
  rcases hop with rfl | rfl
  · exact ⟨fun ⟨σ, h1, h2⟩ => by rw [← hh σ h1]; exact h2, fun h => ⟨ρ, fun _ _ => rfl, h⟩⟩
  · exact ⟨fun h => h ρ fun _ _ => rfl, fun h σ h1 => by rw [hh σ h1]; exact h⟩

theorem Quant.out {op : Bop} (hop : op.isQ) {S : List Nat} {v : Nat} (hv : v ∉ S) {l h : T} (ρ : Nat → Bool) :
    Quant op S (.node v l h) ρ ↔ if ρ v then Quant op S h ρ else Quant op S l ρ := by
  rcases hop with rfl | rfl
  · cases hb : ρ v
    · constructor
      · rintro ⟨σ, h1, h2⟩
        refine ⟨σ, h1, ?_⟩
        simpa [T.eval, h1 v hv, hb] using h2
      · rintro ⟨σ, h1, h2⟩
        refine ⟨σ, h1, ?_⟩
        simpa [T.eval, h1 v hv, hb] using h2
    · constructor
      · rintro ⟨σ, h1, h2⟩
        refine ⟨σ, h1, ?_⟩
        simpa [T.eval, h1 v hv, hb] using h2
      · rintro ⟨σ, h1, h2⟩
        refine ⟨σ, h1, ?_⟩
        simpa [T.eval, h1 v hv, hb] using h2
  · cases hb : ρ v
    · constructor
      · intro hq σ h1
        simpa [T.eval, h1 v hv, hb] using hq σ h1
      · intro hq σ h1
        simpa [T.eval, h1 v hv, hb] using hq σ h1
    · constructor
      · intro hq σ h1
        simpa [T.eval, h1 v hv, hb] using hq σ h1
      · intro hq σ h1
        simpa [T.eval, h1 v hv, hb] using hq σ h1

theorem setv_out {S : List Nat} {v : Nat} (hv : v ∈ S) {σ ρ : Nat → Bool} (h : ∀ w, w ∉ S → σ w = ρ w) (b : Bool) :
    ∀ w, w ∉ S → setv σ v b w = ρ w := fun w hw => by
  have : w ≠ v := by rintro rfl; exact hw hv
  simp only [setv, if_neg this, h w hw]

theorem Quant.mem {op : Bop} (hop : op.isQ) {S : List Nat} {v n : Nat} (hv : v ∈ S) {l h : T}
    (ol : Ord n (v + 1) l) (oh : Ord n (v + 1) h) (ρ : Nat → Bool) (bl bh : Bool) (el : bl = true ↔ Quant op S l ρ)
    (eh : bh = true ↔ Quant op S h ρ) :
    op.f bl bh = true ↔ Quant op S (.node v l h) ρ := by
  rcases hop with rfl | rfl
  · simp only [Bop.f, Bool.or_eq_true, el, eh]
    constructor
    · rintro (⟨σ, h1, h2⟩ | ⟨σ, h1, h2⟩)
      · exact ⟨setv σ v false, setv_out hv h1 _, by rw [eval_low ol]; exact h2⟩
      · exact ⟨setv σ v true, setv_out hv h1 _, by rw [eval_high oh]; exact h2⟩
    · rintro ⟨σ, h1, h2⟩
      simp only [T.eval] at h2
      cases hb : σ v
      · rw [hb] at h2; exact .inl ⟨σ, h1, h2⟩
      · rw [hb] at h2; exact .inr ⟨σ, h1, h2⟩
  · simp only [Bop.f, Bool.and_eq_true, el, eh]
    constructor
    · rintro ⟨h1, h2⟩ σ h3
      simp only [T.eval]
      cases hb : σ v
      · simpa using h1 σ h3
      · simpa using h2 σ h3
    · intro hq
      exact ⟨fun σ h1 => by rw [← eval_low (h := h) ol]; exact hq _ (setv_out hv h1 _),
        fun σ h1 => by rw [← eval_high (l := l) oh]; exact hq _ (setv_out hv h1 _)⟩

/-- the table `quantvarset` contains the levels `S` -/
structure QV (k : K) (S : List Nat) : Prop where
  mem : ∀ v, k.qset v = k.qid ↔ v ∈ S
  last : ∀ v ∈ S, v ≤ k.qlast

theorem QV.keep {k k' : K} {S : List Nat} (h : QV k S) (h1 : k'.qid = k.qid) (h2 : k'.qset = k.qset)
    (h3 : k'.qlast = k.qlast) : QV k' S :=
  ⟨by rw [h1, h2]; exact h.mem, by rw [h3]; exact h.last⟩

theorem quantRec_spec {P : Par} (hg : ∀ s, s < P.grow s) {op : Bop} {id : Nat} (hop : qop id = op) (hisq : op.isQ)
    {tv : T} : ∀ {f : Nat} {k : K} {r m : Nat} {tr : T},
    Inv P k → Lv k → QV k tv.hs → Prot k (id / 8) → Rep k.nd (id / 8) tv →
    Prot k r → Rep k.nd r tr → Ord k.n m tr → k.n < f + m → m ≤ k.n → k.stack.length ≤ 2 * m →
    ∃ x k' t, quantRec P op id f k r = some (x, k') ∧ Inv P k' ∧ Keep k k' ∧ Rep k'.nd x t ∧ Ord k.n m t ∧
      ∀ ρ, t.eval ρ = true ↔ Quant op tv.hs tr ρ
  | 0, k, r, m, tr, _, _, _, _, _, _, _, _, hf, hm, _ => by omega
  | f + 1, k, r, m, tr, hi, hv', hq, pv, rv, pr, rr, or', hf, hm, hst => by
    unfold quantRec
    by_cases h0 : r < 2 ∨ k.qlast < (k.nd r).lvl
    · rw [if_pos h0]
      refine ⟨r, k, tr, rfl, hi, .refl k, rr, or', fun ρ => ?_⟩
      by_cases h2 : r < 2
      · have : Ord k.n (k.qlast + 1) tr := by rw [rr.lt2 h2]; trivial
        exact (Quant.indep hisq this (fun v hv => by have := hq.last v hv; omega) ρ).symm
      · obtain ⟨lo, tl, th, e1, e2, e3, htr⟩ := rr.ge2 (by omega)
        have hq' : k.qlast < (k.nd r).lvl := h0.resolve_left h2
        have : Ord k.n (k.nd r).lvl tr := by rw [htr] at or' ⊢; exact ⟨Nat.le_refl _, or'.2⟩
        exact (Quant.indep hisq this (fun v hv => by have := hq.last v hv; omega) ρ).symm
    · rw [if_neg h0]
      have h2 : 2 ≤ r := by omega
      dsimp only
      have hord : ∀ {k' : K} {x : Nat} {t : T}, Inv P k' → k'.n = k.n → Rep k'.nd x t →
          (∀ ρ, t.eval ρ = true ↔ Quant op tv.hs tr ρ) → Ord k.n m t := fun {k' x t} hi' hn' hx hev => by
        have := hi'.ord hx
        rw [hn'] at this
        refine this.of_indep fun ρ σ hh => ?_
        exact Bool.eq_iff_iff.2 (by
          rw [hev, hev]
          exact ⟨Quant.local hisq or' hh, Quant.local hisq or' fun v hv => (hh v hv).symm⟩)
      by_cases he : (k.quant (P.s1 r)).a = some r ∧ (k.quant (P.s1 r)).c = id
      · rw [if_pos he]
        obtain ⟨t1, t2, t, b1, b2, b3, b4⟩ := hi.qu _ _ he.1
        rw [he.2] at b2
        rw [b1.fun rr, b2.fun rv, he.2, hop] at b4
        exact ⟨_, k, t, rfl, hi, .refl k, b3, hord hi rfl b3 b4, b4⟩
      · rw [if_neg he]
        obtain ⟨lo, tl, th, e1, e2, e3, htr⟩ := rr.ge2 h2
        have or2 := or'
        rw [htr] at or2
        obtain ⟨o1, o2, o3, o4, o5⟩ := or2
        generalize hv : (k.nd r).lvl = v at *
        obtain ⟨a, k1, ta, A1, A2, A3, A4, A5, A6⟩ := quantRec_spec hg hop hisq (f := f) hi hv' hq pv rv
          (pr.low h2 e1) e2 o4 (by omega) (by omega) (by omega)
        have hlen1 : k1.stack.length < 2 * k1.n + 4 := by rw [A3.stack, A3.n]; omega
        have n2 : ({ k1 with stack := a :: k1.stack } : K).n = k.n := A3.n
        obtain ⟨c1, c2, c3⟩ := core_iff.1 (A3.core r pr)
        have hhi : ({ k1 with stack := a :: k1.stack } : K).nd r = k1.nd r := rfl
        have hv2 : Lv { k1 with stack := a :: k1.stack } := A3.lv hv'
        obtain ⟨b, k3, tb, B1, B2, B3, B4, B5, B6⟩ := quantRec_spec hg hop hisq (f := f) (A2.push A4) hv2
          (hq.keep A3.qid A3.qset A3.qlast) (A3.prot pv).push (A3.rep pv rv)
          (r := (({ k1 with stack := a :: k1.stack } : K).nd r).high)
          (by rw [hhi, c3]; exact (A3.prot (pr.high h2 e1)).push)
          (by rw [hhi, c3]; exact A3.rep (pr.high h2 e1) e3) (by rw [n2]; exact o5) (by rw [n2]; omega)
          (by rw [n2]; omega) (by
            have : k1.stack = k.stack := A3.stack
            simp only [List.length_cons, this]; omega)
        have n3 : k3.n = k.n := B3.n.trans A3.n
        have s3 : k3.stack = a :: k.stack := B3.stack.trans (by simp [A3.stack])
        rw [n2] at B5
        have hlv3 : (k3.nd r).lvl = v := by
          rw [(core_iff.1 (B3.core r (A3.prot pr).push)).1, ← hv, ← c1]
        have hq3 : QV k3 tv.hs := hq.keep (B3.qid.trans A3.qid) (B3.qset.trans A3.qset) (B3.qlast.trans A3.qlast)
        have key : ∃ x k4 t, (if k3.qset (k3.nd r).lvl = k3.qid then pushApply P op k3 b
            else pushMake P k3 b fun k => (k.nd r).lvl : Option (Nat × K)) = some (x, k4) ∧ Inv P k4 ∧
            Keep { k3 with stack := k.stack } k4 ∧ Rep k4.nd x t ∧ ∀ ρ, t.eval ρ = true ↔ Quant op tv.hs tr ρ := by
          rw [hlv3]
          by_cases hin : k3.qset v = k3.qid
          · rw [if_pos hin]
            obtain ⟨x, k4, t, C1, C2, C3, C4, C5, C6⟩ := pushApply_spec hg (op := op) (m := v + 1) B2 (B3.lv hv2) s3
              (by rw [s3]; simp only [List.length_cons]; omega) (by rw [n3]; omega)
              (B3.rep .top A4) B4 (by rw [n3]; exact A5) (by rw [n3]; exact B5)
            refine ⟨x, k4, t, C1, C2, C3, C4, fun ρ => ?_⟩
            rw [C6, htr]
            exact Quant.mem hisq ((hq3.mem v).1 hin) o4 o5 ρ _ _ (A6 ρ) (B6 ρ)
          · rw [if_neg hin]
            obtain ⟨x, k4, t, C1, C2, C3, C4, C5, C6⟩ := pushMake_spec hg B2 s3
              (by rw [s3, n3]; simp only [List.length_cons]; omega) (B3.rep .top A4) B4
              (lvl := fun k => (k.nd r).lvl) (v := v) hlv3
              (by rw [n3]; exact o2) (by rw [n3]; exact A5) (by rw [n3]; exact B5)
            refine ⟨x, k4, t, C1, C2, C3, C4, fun ρ => ?_⟩
            rw [C6, htr, Quant.out hisq (fun h => hin ((hq3.mem v).2 h))]
            cases ρ v
            · exact A6 ρ
            · exact B6 ρ
        obtain ⟨x, k4, t, C1, C2, C3, C4, hev⟩ := key
        have hkeep : Keep k k4 := rec_node (P := P) (r := r) (b := b) (x := x) (v := v) A3 B3 C3
        have hap : QuOk k4.nd { k4.quant (P.s1 r) with a := some r, c := id, res := x } := by
          intro l' hl'
          injection hl' with hl'
          subst hl'
          exact ⟨tr, tv, t, hkeep.rep pr rr, hkeep.rep pv rv, C4, by
            show ∀ ρ, t.eval ρ = true ↔ Quant (qop id) tv.hs tr ρ
            rw [hop]; exact hev⟩
        refine ⟨x, _, t, ?_, C2.setQuant (s := P.s1 r) hap,
          hkeep.trans ⟨rfl, rfl, fun _ => rfl, fun _ _ => rfl, rfl, rfl, rfl, rfl, rfl, Nat.le_refl _,
            fun _ _ _ _ => ⟨rfl, fun _ h => h⟩⟩,
          C4, hord C2 hkeep.n C4 hev, hev⟩
        rw [e1]
        simp only [Option.bind_eq_bind, Option.bind_some, A1, push_eq hlen1, B1]
        rw [C1]
        rfl

/-! ### The variable tables -/

/-- `k'` differs from `k` only in the table -/
structure OnlyQ (k k' : K) : Prop where
  eq : k' = { k with qset := k'.qset, qid := k'.qid, qlast := k'.qlast }

/-- earlier identifiers are smaller -/
structure QI (k : K) : Prop where
  nonneg : 0 ≤ k.qid
  le : ∀ v, ((k.qset v).natAbs : Int) ≤ k.qid

theorem qvar_spec {P : Par} : ∀ {f : Nat} {k : K} {i m : Nat} {t : T}, Rep k.nd i t → Ord k.n m t → k.n < f + m →
    m ≤ k.n → ∃ k', qvar f k i = some k' ∧ k' = { k with qset := k'.qset, qlast := k'.qlast } ∧
      (∀ v, k'.qset v = if v ∈ t.hs then k.qid else k.qset v) ∧ (∀ v ∈ t.hs, m ≤ v ∧ v ≤ k'.qlast) ∧
      (t.hs = [] → k'.qlast = k.qlast)
  | 0, k, i, m, t, _, _, hf, hm => by omega
  | f + 1, k, i, m, t, hr, ho, hf, hm => by
    unfold qvar
    by_cases h2 : i < 2
    · rw [if_pos h2, hr.lt2 h2]
      exact ⟨k, rfl, rfl, by simp [T.hs], by simp [T.hs], fun _ => rfl⟩
    · rw [if_neg h2]
      obtain ⟨lo, l, h, e1, e2, e3, rfl⟩ := hr.ge2 (by omega)
      obtain ⟨o1, o2, o3, o4, o5⟩ := ho
      obtain ⟨k', q1, q2, q3, q4, q5⟩ := qvar_spec (P := P) (f := f)
        (k := { k with qset := upd k.qset (k.nd i).lvl k.qid, qlast := (k.nd i).lvl }) (m := (k.nd i).lvl + 1) e3 o5
        (by show k.n < _; omega) (by show _ ≤ k.n; omega)
      refine ⟨k', q1, q2, fun v => ?_, fun v hv => ?_, fun h => by simp [T.hs] at h⟩
      · rw [q3]
        simp only [T.hs, List.mem_cons, upd]
        by_cases a : v ∈ h.hs
        · simp [a]
        · by_cases b : v = (k.nd i).lvl <;> simp [a, b]
      · simp only [T.hs, List.mem_cons] at hv
        rcases hv with rfl | hv
        · refine ⟨o1, ?_⟩
          cases hs : h.hs with
          | nil => rw [q5 hs]
          | cons w ws =>
            have := q4 w (by rw [hs]; simp)
            omega
        · have := q4 v hv
          omega

theorem svar_spec {P : Par} : ∀ {f : Nat} {k : K} {i m : Nat} {t : T}, Inv P k → Lv k → Rep k.nd i t → Ord k.n m t →
    k.n < f + m → m ≤ k.n → ∃ k', svar f k i = some k' ∧ k' = { k with qset := k'.qset, qlast := k'.qlast } ∧
      (∀ v, k'.qset v = match t.cp.lookup v with
        | none => k.qset v
        | some b => if b then k.qid else -k.qid) ∧
      (∀ v b, t.cp.lookup v = some b → m ≤ v ∧ v ≤ k'.qlast) ∧ (2 ≤ i → k'.qlast = k.n) ∧
      (i < 2 → k'.qlast = k.qlast)
  | 0, k, i, m, t, _, _, _, _, hf, hm => by omega
  | f + 1, k, i, m, t, hi, hv, hr, ho, hf, hm => by
    unfold svar
    by_cases h2 : i < 2
    · rw [if_pos h2, hr.lt2 h2]
      exact ⟨k, rfl, rfl, by simp [T.cp], by simp [T.cp], fun _ => by omega, fun _ => rfl⟩
    · rw [if_neg h2]
      obtain ⟨lo, l, h, e1, e2, e3, rfl⟩ := hr.ge2 (by omega)
      obtain ⟨o1, o2, o3, o4, o5⟩ := ho
      rw [e1]
      simp only [Option.bind_eq_bind, Option.bind_some]
      -- the next node and its tree
      have key : ∀ (b : Bool) (j : Nat) (tj : T), Rep k.nd j tj → Ord k.n ((k.nd i).lvl + 1) tj →
          (T.node (k.nd i).lvl l h).cp = ((k.nd i).lvl, b) :: tj.cp →
          ∃ k', svar f { k with qset := upd k.qset (k.nd i).lvl (if b then k.qid else -k.qid), qlast := (k.nd j).lvl } j
            = some k' ∧ k' = { k with qset := k'.qset, qlast := k'.qlast } ∧
          (∀ v, k'.qset v = match (T.node (k.nd i).lvl l h).cp.lookup v with
            | none => k.qset v
            | some b => if b then k.qid else -k.qid) ∧
          (∀ v b, (T.node (k.nd i).lvl l h).cp.lookup v = some b → m ≤ v ∧ v ≤ k'.qlast) ∧ k'.qlast = k.n := by
        intro b j tj hj oj hcp
        obtain ⟨k', q1, q2, q3, q4, q5, q6⟩ := svar_spec (P := P) (f := f)
          (k := { k with qset := upd k.qset (k.nd i).lvl (if b then k.qid else -k.qid), qlast := (k.nd j).lvl })
          (m := (k.nd i).lvl + 1)
          ⟨hi.sz, hi.live, hi.uniq, hi.bmem, hi.blive, hi.fmem, hi.fnd, hi.rlive, hi.slive, hi.ap, hi.qu, hi.mi⟩
          hv hj oj (by show k.n < _; omega) (by show _ ≤ k.n; omega)
        have hlast : k'.qlast = k.n := by
          by_cases hj2 : 2 ≤ j
          · exact q5 hj2
          · rw [q6 (by omega)]
            show (k.nd j).lvl = k.n
            rw [hj.lvl hv, hj.lt2 (by omega)]
            rfl
        refine ⟨k', q1, q2, fun v => ?_, fun v c hc => ?_, hlast⟩
        · rw [q3, hcp]
          by_cases hvv : v = (k.nd i).lvl
          · subst hvv
            have : tj.cp.lookup (k.nd i).lvl = none := by
              cases hl : tj.cp.lookup (k.nd i).lvl with
              | none => rfl
              | some c => have := (q4 _ c hl).1; omega
            rw [this]
            simp
          · have hb : (v == (k.nd i).lvl) = false := by simpa using hvv
            simp only [List.lookup, hb]
            cases hl : tj.cp.lookup v with
            | none => simp [upd_ne _ _ hvv]
            | some c => rfl
        · rw [hlast]
          rw [hcp] at hc
          by_cases hvv : v = (k.nd i).lvl
          · omega
          · have hb : (v == (k.nd i).lvl) = false := by simpa using hvv
            simp only [List.lookup, hb] at hc
            have := q4 v c hc
            omega
      by_cases hlo : lo = 0
      · have hl : l = .leaf false := by subst hlo; exact e2.lt2 (by omega)
        obtain ⟨k', q1, q2, q3, q4, q5⟩ := key true (k.nd i).high h e3 o5 (by simp [T.cp, hl])
        simp only [if_pos hlo]
        exact ⟨k', q1, q2, q3, q4, fun _ => q5, fun h => absurd h h2⟩
      · have hl : l ≠ .leaf false := fun h => hlo (by rw [h] at e2; exact e2.leaf_idx)
        obtain ⟨k', q1, q2, q3, q4, q5⟩ := key false lo l e2 o4 (by simp [T.cp, hl])
        simp only [if_neg hlo]
        exact ⟨k', q1, q2, q3, q4, fun _ => q5, fun h => absurd h h2⟩

end Verif.Bdd
