import Verif.Bdd.World
import Mathlib.Tactic.IntervalCases
import Mathlib.NumberTheory.Bertrand
/-
C23, C24, C25, C49: canonicity of BDDs, correctness of the operations, model count, path count, over all sequences of
calls on a kernel (without reordering of variables).
-/
namespace Verif.Bdd
open Verif
set_option linter.unusedSectionVars false
variable {α σ : Type} [DecidableEq α]

/-! ### The meaning of a BDD -/

/-- the value of the node `a`: follow the low edge if the variable of the node is false, the high edge if it is true, up to
the constant 0 or 1. `none`: freed node, or too long a path. -/
def walk (w : W α) (v : α → Bool) : Nat → Nat → Option Bool
  | 0, _ => none
  | f + 1, a =>
    if a = 0 then some false
    else if a = 1 then some true
    else (w.k.nd a).low.bind fun lo =>
      walk w v f (if ((w.names[(w.k.nd a).lvl]?).map v).getD false then (w.k.nd a).high else lo)

/-- the BDD with root `a` is the function `g` -/
def Shows (w : W α) (a : Nat) (g : (α → Bool) → Bool) : Prop := ∀ v, walk w v (w.k.n + 1) a = some (g v)

theorem walk_rep {w : W α} {v : α → Bool} : ∀ {f i m : Nat} {t : T}, Rep w.k.nd i t → Ord w.k.n m t → m ≤ w.k.n →
    w.k.n - m < f → walk w v f i = some (t.eval fun j => ((w.names[j]?).map v).getD false)
  | 0, _, _, _, _, _, _, hf => by omega
  | f + 1, i, m, t, hr, ho, hm, hf => by
    unfold walk
    cases hr with
    | ff => rfl
    | tt => rfl
    | node h1 h2 h3 h4 =>
      obtain ⟨o1, o2, _, o4, o5⟩ := ho
      rw [if_neg (by omega), if_neg (by omega), h2, Option.bind_some]
      simp only [T.eval]
      split
      · exact walk_rep h4 o5 (by omega) (by omega)
      · exact walk_rep h3 o4 (by omega) (by omega)

theorem Den.shows {P : Par} {w : W α} {own : Nat → Nat} (hg : Good P w own) {a : Nat} {g : (α → Bool) → Bool} (hd : Den w a g) :
    Shows w a g := by
  obtain ⟨t, h1, h2⟩ := hd
  intro v
  rw [walk_rep h1 (hg.wf.inv.ord h1) (Nat.zero_le _) (by omega), h2]
  intro j x hx
  simp [hx]

/-- equal functions have equal nodes -/
theorem Den.canon {P : Par} {w : W α} {own : Nat → Nat} (hg : Good P w own) {a b : Nat} {f g : (α → Bool) → Bool}
    (ha : Den w a f) (hb : Den w b g) : a = b ↔ ∀ v, f v = g v := by
  obtain ⟨s, s1, s2⟩ := ha
  obtain ⟨t, t1, t2⟩ := hb
  have key : ∀ ρ : Nat → Bool, ∃ v : α → Bool, ∀ (j : Nat) x, w.names[j]? = some x → ρ j = v x := by
    intro ρ
    refine ⟨fun x => ρ (w.names.idxOf x), fun j x hx => ?_⟩
    obtain ⟨hj, hx⟩ := List.getElem?_eq_some_iff.1 hx
    subst hx
    show ρ j = ρ _
    rw [hg.nd.idxOf_getElem]
  constructor
  · rintro rfl v
    have := s1.fun t1
    subst this
    have h : ∀ (j : Nat) x, w.names[j]? = some x → (fun j => ((w.names[j]?).map v).getD false) j = v x := by
      intro j x hx; simp [hx]
    rw [← s2 _ v h, ← t2 _ v h]
  · intro he
    have : s = t := Ord.canon _ _ (hg.wf.inv.ord s1) (hg.wf.inv.ord t1) fun ρ => by
      obtain ⟨v, hv⟩ := key ρ
      rw [s2 ρ v hv, t2 ρ v hv, he]
    subst this
    exact hg.wf.inv.idx s1 t1

/-! ### Without cancellation -/

theorem andThen_some {r : R α σ} {f : Nat → W α → σ → R α σ} (hr : ∀ w s, r ≠ some (none, w, s))
    (hf : ∀ a w1 s1 w s, f a w1 s1 ≠ some (none, w, s)) : ∀ w s, andThen r f ≠ some (none, w, s) := by
  intro w s
  cases r with
  | none => simp [andThen]
  | some r =>
    obtain ⟨o, w1, s1⟩ := r
    cases o with
    | none => exact absurd rfl (hr w1 s1)
    | some a => exact hf a w1 s1 w s

theorem combine_some {P : Par} {h : σ → Bool × σ} (hh : ∀ s, (h s).1 = true) (op : Bop) (w : W α) (s : σ) (a b : Nat) :
    ∀ w' s', combine P h op w s a b ≠ some (none, w', s') := by
  intro w' s' he
  simp only [combine, addRefH, hh, if_true, Option.bind_eq_bind, Option.bind_eq_some_iff, Option.map_eq_some_iff] at he
  obtain ⟨p, -, q, ⟨k, -, rfl⟩, k3, -, k4, -, h5⟩ := he
  cases h5

theorem negate_some {P : Par} {h : σ → Bool × σ} (hh : ∀ s, (h s).1 = true) (w : W α) (s : σ) (a : Nat) :
    ∀ w' s', negate P h w s a ≠ some (none, w', s') := by
  intro w' s' he
  simp only [negate, addRefH, hh, if_true, Option.bind_eq_bind, Option.bind_eq_some_iff, Option.map_eq_some_iff] at he
  obtain ⟨p, -, q, ⟨k, -, rfl⟩, k3, -, h5⟩ := he
  cases h5

mutual
theorem compileW_some {P : Par} {h : σ → Bool × σ} (hh : ∀ s, (h s).1 = true) {enc : Fm α → W α → σ → R α σ}
    (he : ∀ φ w s w' s', enc φ w s ≠ some (none, w', s')) :
    ∀ (φ : Fm α) (w : W α) (s : σ), ∀ w' s', compileW P h enc φ w s ≠ some (none, w', s')
  | .fls, w, s => by simp [compileW]
  | .tru, w, s => by simp [compileW]
  | .lit l, w, s => by
    intro w' s' e
    rw [compileW, Option.map_eq_some_iff] at e
    obtain ⟨p, -, e⟩ := e
    cases e
  | .not f, w, s => by
    rw [compileW]
    exact andThen_some (compileW_some hh he f w s) fun a w1 s1 => negate_some hh w1 s1 a
  | .impl f g, w, s => by
    rw [compileW]
    exact andThen_some (compileW_some hh he f w s) fun a w1 s1 => andThen_some (compileW_some hh he g w1 s1)
      fun b w2 s2 => combine_some hh _ w2 s2 a b
  | .equiv f g, w, s => by
    rw [compileW]
    exact andThen_some (compileW_some hh he f w s) fun a w1 s1 => andThen_some (compileW_some hh he g w1 s1)
      fun b w2 s2 => combine_some hh _ w2 s2 a b
  | .and fs, w, s => by rw [compileW]; exact compileN_some hh he .and fs w s
  | .or fs, w, s => by rw [compileW]; exact compileN_some hh he .or fs w s
  | .cc c k xs, w, s => by rw [compileW]; exact he _ w s
  | .pbc c k ts, w, s => by rw [compileW]; exact he _ w s
theorem compileN_some {P : Par} {h : σ → Bool × σ} (hh : ∀ s, (h s).1 = true) {enc : Fm α → W α → σ → R α σ}
    (he : ∀ φ w s w' s', enc φ w s ≠ some (none, w', s')) (op : Bop) :
    ∀ (fs : List (Fm α)) (w : W α) (s : σ), ∀ w' s', compileN P h enc op fs w s ≠ some (none, w', s')
  | [], w, s => by simp [compileN]
  | f :: fs, w, s => by
    rw [compileN]
    exact andThen_some (compileW_some hh he f w s) fun a w1 s1 => compileL_some hh he op fs a w1 s1
theorem compileL_some {P : Par} {h : σ → Bool × σ} (hh : ∀ s, (h s).1 = true) {enc : Fm α → W α → σ → R α σ}
    (he : ∀ φ w s w' s', enc φ w s ≠ some (none, w', s')) (op : Bop) :
    ∀ (fs : List (Fm α)) (a : Nat) (w : W α) (s : σ), ∀ w' s', compileL P h enc op fs a w s ≠ some (none, w', s')
  | [], a, w, s => by simp [compileL]
  | f :: fs, a, w, s => by
    rw [compileL]
    exact andThen_some (compileW_some hh he f w s) fun b w1 s1 => andThen_some (combine_some hh op w1 s1 a b)
      fun x w2 s2 => compileL_some hh he op fs x w2 s2
end

/-- calls that return a BDD -/
def Op.isBdd : Op α σ → Bool
  | .count _ => false
  | .paths _ _ => false
  | _ => true

theorem Op.kept_isBdd {o : Op α σ} (h : o.kept = true) : o.isBdd = true := by cases o <;> simp_all [Op.kept, Op.isBdd]

theorem handle_some {st : St α} {i a : Nat} (h : st.out[i]? = some (.bdd a)) : st.handle i = some a := by
  unfold St.handle; rw [h]

theorem step_some {P : Par} {h : σ → Bool × σ} (hh : ∀ s, (h s).1 = true) {nnf : Fm α → Fm α} {st st' : St α} {o : Op α σ}
    (ha : ∀ i ∈ o.args, ∃ a, st.out[i]? = some (.bdd a)) (hs : step P h nnf st o = some st') :
    ∃ x, st'.out = st.out ++ [x] ∧ (o.isBdd = true → ∃ a, x = .bdd a) := by
  have hB : ∀ {r}, putB st r = some st' → ∃ x, st'.out = st.out ++ [x] ∧ (o.isBdd = true → ∃ a, x = .bdd a) := by
    intro r hr
    unfold putB at hr
    rw [Option.map_eq_some_iff] at hr
    obtain ⟨p, -, rfl⟩ := hr
    exact ⟨_, rfl, fun _ => ⟨_, rfl⟩⟩
  have hN : ∀ {r}, o.isBdd = false → putN st r = some st' →
      ∃ x, st'.out = st.out ++ [x] ∧ (o.isBdd = true → ∃ a, x = .bdd a) := by
    intro r hf hr
    simp only [putN, Option.bind_eq_some_iff, Option.map_eq_some_iff] at hr
    obtain ⟨p, -, v, -, rfl⟩ := hr
    exact ⟨_, rfl, fun hb => by rw [hf] at hb; cases hb⟩
  cases o with
  | compile φ s =>
    simp only [step, Option.map_eq_some_iff] at hs
    obtain ⟨⟨x, w', s'⟩, h1, rfl⟩ := hs
    cases x with
    | none =>
      exact absurd h1 (compileW_some hh (fun ψ w s => compileW_some hh (by simp) (nnf ψ) w s) φ st.w s w' s')
    | some a => exact ⟨_, rfl, fun _ => ⟨a, rfl⟩⟩
  | lits ls => exact hB hs
  | apply op i j =>
    obtain ⟨a, ha1⟩ := ha i (by simp [Op.args])
    obtain ⟨b, hb1⟩ := ha j (by simp [Op.args])
    simp only [step, withB, handle_some ha1, handle_some hb1] at hs
    exact hB hs
  | neg i =>
    obtain ⟨a, ha1⟩ := ha i (by simp [Op.args])
    simp only [step, withB, handle_some ha1] at hs
    exact hB hs
  | restrict i ls =>
    obtain ⟨a, ha1⟩ := ha i (by simp [Op.args])
    simp only [step, withB, handle_some ha1] at hs
    exact hB hs
  | exist i ls =>
    obtain ⟨a, ha1⟩ := ha i (by simp [Op.args])
    simp only [step, withB, handle_some ha1] at hs
    exact hB hs
  | univ i ls =>
    obtain ⟨a, ha1⟩ := ha i (by simp [Op.args])
    simp only [step, withB, handle_some ha1] at hs
    exact hB hs
  | count i =>
    obtain ⟨a, ha1⟩ := ha i (by simp [Op.args])
    simp only [step, withB, handle_some ha1] at hs
    exact hN rfl hs
  | paths b i =>
    obtain ⟨a, ha1⟩ := ha i (by simp [Op.args])
    simp only [step, withB, handle_some ha1] at hs
    exact hN rfl hs

theorem runNew_snoc {P : Par} {h : σ → Bool × σ} {nnf : Fm α → Fm α} {num sz : Nat} {order : List α} (ops : List (Op α σ))
    (o : Op α σ) : runNew P h nnf num sz order (ops ++ [o]) =
      (runNew P h nnf num sz order ops).bind fun st => step P h nnf st o := by
  unfold runNew run
  cases newW P num sz order with
  | none => rfl
  | some w =>
    simp only [Option.bind_some, List.foldlM_append]
    cases List.foldlM (step P h nnf) { w := w, out := [] } ops with
    | none => rfl
    | some st => simp [List.foldlM_cons]

theorem OpsOk.left {nnf : Fm α → Fm α} {ops ops' : List (Op α σ)} (h : OpsOk nnf (ops ++ ops')) : OpsOk nnf ops :=
  fun pre o post e => h pre o (post ++ ops') (by rw [e]; simp)

/-- if the handler never cancels, every call that should return a BDD returns one -/
theorem runNew_some {P : Par} {h : σ → Bool × σ} (hh : ∀ s, (h s).1 = true) {nnf : Fm α → Fm α} {num sz : Nat}
    {order : List α} : ∀ (ops : List (Op α σ)) {st : St α}, OpsOk nnf ops → runNew P h nnf num sz order ops = some st →
      st.out.length = ops.length ∧
      ∀ (i : Nat) (o : Op α σ), ops[i]? = some o → o.isBdd = true → ∃ a, st.out[i]? = some (.bdd a) := by
  intro ops
  induction ops using List.reverseRecOn with
  | nil =>
    intro st _ hr
    unfold runNew run at hr
    cases hw : newW P num sz order with
    | none => rw [hw] at hr; cases hr
    | some w =>
      rw [hw] at hr
      injection hr with hr
      subst hr
      exact ⟨rfl, fun i o h => by simp at h⟩
  | append_singleton ops o ih =>
    intro st hok hr
    rw [runNew_snoc, Option.bind_eq_some_iff] at hr
    obtain ⟨st0, h1, h2⟩ := hr
    obtain ⟨hl, hb⟩ := ih hok.left h1
    obtain ⟨x, e1, e2⟩ := step_some hh (fun i hi => by
      obtain ⟨o', h3, h4⟩ := (hok ops o [] rfl).1 i hi
      exact hb i o' h3 (Op.kept_isBdd h4)) h2
    refine ⟨by rw [e1]; simp [hl], fun i o' h3 h4 => ?_⟩
    rw [e1]
    by_cases hi : i < ops.length
    · rw [List.getElem?_append_left hi] at h3
      rw [List.getElem?_append_left (by omega)]
      exact hb i o' h3 h4
    · rw [List.getElem?_append_right (by omega)] at h3 ⊢
      rw [hl]
      obtain ⟨h5, h6⟩ := List.getElem?_eq_some_iff.1 h3
      simp at h5
      have : i - ops.length = 0 := by omega
      rw [this] at h3 ⊢
      simp at h3
      subst h3
      obtain ⟨a, ha⟩ := e2 h4
      exact ⟨a, by simp [ha]⟩

/-! ### Theorems -/

/-- the handle of call `i` is still good: its BDD is referenced, or it was returned by the last call -/
def Live (ops : List (Op α σ)) (i : Nat) : Prop := ∃ o, ops[i]? = some o ∧ (o.kept = true ∨ i + 1 = ops.length)

/-- C23: two BDDs have the same root if and only if they represent the same function; the tautology and the contradiction
test are exact. For all histories of calls of a kernel, all sizes of tables and caches, all hash functions. -/
theorem C23_canonical {P : Par} (hgr : ∀ s, s < P.grow s) (h : σ → Bool × σ) (nnf : Fm α → Fm α) (num sz : Nat) (hsz : 2 ≤ sz)
    (order : List α) (ops : List (Op α σ)) (hok : OpsOk nnf ops) {st : St α}
    (hrun : runNew P h nnf num sz order ops = some st) {i j a b : Nat} (hi : Live ops i) (hj : Live ops j)
    (ha : st.out[i]? = some (.bdd a)) (hb : st.out[j]? = some (.bdd b)) :
    (a = b ↔ ∀ v, walk st.w v (num + 1) a = walk st.w v (num + 1) b) ∧
    (a = b ↔ ∀ v, (sems ops).getD i (fun _ => false) v = (sems ops).getD j (fun _ => false) v) ∧
    (isTautology a = true ↔ ∀ v, (sems ops).getD i (fun _ => false) v = true) ∧
    (isContradiction a = true ↔ ∀ v, (sems ops).getD i (fun _ => false) v = false) := by
  rcases runNew_spec hgr h nnf num sz hsz order ops hok with ⟨h1, -⟩ | ⟨st', own, h1, h2, h3, -, -⟩
  · rw [h1] at hrun; cases hrun
  · rw [h1] at hrun
    injection hrun with hrun
    subst hrun
    obtain ⟨o, i1, i2⟩ := hi
    obtain ⟨o', j1, j2⟩ := hj
    have da := h2.den i o a i1 ha i2
    have db := h2.den j o' b j1 hb j2
    have d0 : Den st'.w 0 (fun _ => false) := ⟨_, .ff, fun _ _ _ => rfl⟩
    have d1 : Den st'.w 1 (fun _ => true) := ⟨_, .tt, fun _ _ _ => rfl⟩
    have hc := Den.canon h2.good da db
    refine ⟨?_, hc, ?_, ?_⟩
    · rw [hc]
      have sa := Den.shows h2.good da
      have sb := Den.shows h2.good db
      unfold Shows at sa sb
      rw [h3] at sa sb
      exact forall_congr' fun v => by rw [sa, sb]; simp
    · rw [← Den.canon h2.good da d1]; simp [isTautology]
    · rw [← Den.canon h2.good da d0]; simp [isContradiction]

/-- C24 (part): after every history of calls, the BDD of every call represents the function it should, as long as the BDD
is referenced by the kernel or was just returned; a call panics only if the variables do not fit into the kernel; unless
the handler cancels, calls return BDDs. Missing: BDDs of `Restrict`, `Exists`, `ForAll` are right when returned, but may be
wrong later, see `C24_restrict_false`. -/
theorem C24_partial {P : Par} (hgr : ∀ s, s < P.grow s) (h : σ → Bool × σ) (nnf : Fm α → Fm α) (num sz : Nat) (hsz : 2 ≤ sz)
    (order : List α) (ops : List (Op α σ)) (hok : OpsOk nnf ops) :
    (runNew P h nnf num sz order ops = none ∧ ∀ U : List α, (∀ x ∈ order, x ∈ U) → (∀ o ∈ ops, ∀ x ∈ o.vars, x ∈ U) →
      num < U.length) ∨
    ∃ st, runNew P h nnf num sz order ops = some st ∧
      ((∀ s, (h s).1 = true) → ∀ (i : Nat) (o : Op α σ), ops[i]? = some o → o.isBdd = true → ∃ a, st.out[i]? = some (.bdd a)) ∧
      ∀ i a, Live ops i → st.out[i]? = some (.bdd a) →
        ∀ v, walk st.w v (num + 1) a = some ((sems ops).getD i (fun _ => false) v) := by
  rcases runNew_spec hgr h nnf num sz hsz order ops hok with h1 | ⟨st, own, h1, h2, h3, -, -⟩
  · exact .inl h1
  · refine .inr ⟨st, h1, fun hh => (runNew_some hh ops hok h1).2, fun i a ⟨o, i1, i2⟩ ha v => ?_⟩
    rw [← h3]
    exact Den.shows h2.good (h2.den i o a i1 ha i2) v

/-- C25 (part): the model count is right, if every BDD counted before was constant or had the first variable at its root.
Missing: other BDDs spoil the cache, see `C25_false`. -/
theorem C25_partial {P : Par} (hgr : ∀ s, s < P.grow s) (h : σ → Bool × σ) (nnf : Fm α → Fm α) (num sz : Nat) (hsz : 2 ≤ sz)
    (order : List α) (ops : List (Op α σ)) (i : Nat) (hok : OpsOk nnf (ops ++ [.count i])) {st st' : St α}
    (hrun : runNew P h nnf num sz order ops = some st) (hrun' : step P h nnf st (.count i) = some st')
    (hsp : ∀ pre o post st0, ops = pre ++ o :: post → runNew P h nnf num sz order pre = some st0 → ¬o.spoils st0)
    {a : Nat} (ha : st.out[i]? = some (.bdd a)) :
    st.w.names.Nodup ∧ st.w.names.length ≤ num ∧
    st'.out = st.out ++ [.num (2 ^ (num - st.w.names.length) *
      Verif.count st.w.names ((sems ops).getD i fun _ => false))] := by
  rcases runNew_spec hgr h nnf num sz hsz order ops hok.left with ⟨h1, -⟩ | ⟨st1, own, h1, h2, h3, h4, h5⟩
  · rw [h1] at hrun; cases hrun
  · rw [h1] at hrun
    injection hrun with hrun
    subst hrun
    have hc := h5 hsp
    rcases step_spec hgr h nnf h2 (hok ops _ [] rfl) with ⟨d1, -⟩ | ⟨st2, own', d1, d2⟩
    · rw [d1] at hrun'; cases hrun'
    · rw [d1] at hrun'
      injection hrun' with hrun'
      subst hrun'
      have := d2.num hc i a rfl (handle_some ha)
      rw [h3] at this
      exact ⟨h2.good.nd, h3 ▸ h2.good.len, this⟩

/-! ### Examples and counterexamples -/

/-- kernel.go:723-729: `pair`, `triple` (without 32-bit overflow) -/
def pairN (a b : Nat) : Nat := (a + b) * (a + b + 1) / 2 + a
def tripleN (a b c : Nat) : Nat := pairN c (pairN a b)

/-- the hash functions of the code (kernel.go:719-721, cache.go:49-51) for a cache size; the growth stands for the largest
prime number up to `2 * s` -/
def exPar (cache : Nat) : Par where
  hash l a b s := tripleN l a b % s
  grow s := if s ≤ 13 then [2, 3, 3, 5, 7, 7, 11, 13, 13, 17, 19, 19, 23, 23].getD s 0 else 2 * s - 1
  s1 r := r % cache
  s2 r i := pairN r i % cache
  s3 l r o := tripleN l r o % cache

theorem exPar_grow (c : Nat) : ∀ s, s < (exPar c).grow s := by
  intro s
  show s < if s ≤ 13 then _ else _
  split
  · next h => interval_cases s <;> decide
  · omega

/-- the table of the code grows: for tables of up to 50000 nodes there is a prime number above the size within the bound of
kernel.go:600 -/
theorem grow_prime {s : Nat} (h : s ≠ 0) (hs : s ≤ 50000) : ∃ p, p.Prime ∧ s < p ∧ p ≤ min (2 * s) (s + 50000) := by
  obtain ⟨p, h1, h2, h3⟩ := Nat.exists_prime_lt_and_le_two_mul s h
  exact ⟨p, h1, h2, by omega⟩

/-- a handler that never cancels -/
def exH : Unit → Bool × Unit := fun s => (true, s)

def exP (x : Nat) : Fm Nat := .lit ⟨x, true⟩
def exN (x : Nat) : Fm Nat := .lit ⟨x, false⟩

def exRun (num sz : Nat) (ops : List (Op Nat Unit)) : Option (St Nat) := runNew (exPar 11) exH id num sz (List.range num) ops

/-- values of the BDD of call `i` -/
def exVals (num sz : Nat) (ops : List (Op Nat Unit)) (i : Nat) : Option (List (Option Bool)) :=
  (exRun num sz ops).bind fun st => (st.handle i).map fun a =>
    (List.range (2 ^ num)).map fun m => walk st.w (fun x => m.testBit x) (num + 1) a

def exOps : List (Op Nat Unit) :=
  [.compile (.and [exP 0, exP 1, exP 2]) (), .restrict 0 [⟨1, true⟩], .compile (.or [exP 0, exP 1]) (),
   .compile (.or [exP 0, exP 2]) (), .compile (.or [exP 1, exP 2]) ()]

example : OpsOk id exOps := by
  intro pre o post e
  have hl : pre.length < 5 := by
    have := congrArg List.length e
    simp [exOps] at this
    omega
  have e0 : pre = exOps.take pre.length := by rw [e]; simp
  have e1 : o = exOps[pre.length]'(by simpa [exOps] using hl) := by simp [e]
  generalize pre.length = m at hl e0 e1
  subst e0 e1
  have hm : m = 0 ∨ m = 1 ∨ m = 2 ∨ m = 3 ∨ m = 4 := by omega
  rcases hm with rfl | rfl | rfl | rfl | rfl
  · exact ⟨by simp [exOps, Op.args], by rintro φ s ⟨⟩; exact ⟨by simp, trivial, trivial, trivial, trivial⟩⟩
  · exact ⟨by simp [exOps, Op.args, Op.kept], by rintro φ s ⟨⟩⟩
  · exact ⟨by simp [exOps, Op.args], by rintro φ s ⟨⟩; exact ⟨by simp, trivial, trivial, trivial⟩⟩
  · exact ⟨by simp [exOps, Op.args], by rintro φ s ⟨⟩; exact ⟨by simp, trivial, trivial, trivial⟩⟩
  · exact ⟨by simp [exOps, Op.args], by rintro φ s ⟨⟩; exact ⟨by simp, trivial, trivial, trivial⟩⟩

example : (exRun 3 13 exOps).isSome = true := by decide +kernel

/-- C24 does not hold for later uses of restricted BDDs: `Restrict` does not reference its result. Here the restriction of
`x0 & x1 & x2` by `x1` is `x0 & x2` at first, but `x1 | x2` after three more formulas are compiled. -/
theorem C24_restrict_false :
    exVals 3 13 (exOps.take 2) 1 = some [some false, some false, some false, some false, some false, some true, some false, some true] ∧
    exVals 3 13 exOps 1 = some [some false, some false, some true, some true, some true, some true, some true, some true] := by
  decide +kernel

/-- C25 does not hold: the second count of the BDD of `x1` in a kernel with variables `x0`, `x1` is 4 instead of 2. -/
theorem C25_false :
    (exRun 2 13 [.compile (exP 1) (), .count 0, .count 0]).map (·.out.drop 1) = some [.num 2, .num 4] ∧
    Verif.count [0, 1] (fun v => (exP 1).eval v) = 2 := by
  decide +kernel

/-- the first two counts of the BDD of `x0` are right -/
example : (exRun 2 13 [.compile (exP 0) (), .count 0, .count 0]).map (·.out.drop 1) = some [.num 2, .num 2] := by
  decide +kernel

/-- the number of paths to the constant `b` -/
def pathsOf (w : W α) (b : Bool) : Nat → Nat → Nat
  | 0, _ => 0
  | f + 1, a =>
    if a < 2 then (if (a == 1) = b then 1 else 0)
    else match (w.k.nd a).low with
      | none => 0
      | some lo => pathsOf w b f lo + pathsOf w b f (w.k.nd a).high

/-- C49 does not hold: the BDD of `x0 <=> (x1 <=> x2)` has 4 paths to each constant, but 5 are counted. -/
theorem C49_false :
    (exRun 3 31 [.compile (.equiv (exP 0) (.equiv (exP 1) (exP 2))) (), .paths true 0, .paths false 0]).map
      (fun st => (st.out.drop 1, st.handle 0 |>.map fun a => (pathsOf st.w true 4 a, pathsOf st.w false 4 a))) =
      some ([.num 5, .num 5], some (4, 4)) := by
  decide +kernel

/-- without literals `CompileLiterals` yields the constant false instead of true -/
theorem C24_noLiterals_false : (exRun 2 13 [.lits []]).map (·.out) = some [.bdd 0] := by decide +kernel

end Verif.Bdd
