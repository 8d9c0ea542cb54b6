import Verif.Parser.Lex
/-! # The parse tree of a printed formula -/
namespace Verif.Parser
open Verif Verif.Tree

/-! ## expected trees -/

def termMul (t : Int × Lit String) : Mul := if t.1 ≠ 1 then .numberLiteral (intTxt t.1) (litTxt t.2) else .literal (litTxt t.2)

def brPT (b : Bool) (t : PT) : PT := if b then .br t else t

mutual
def toPT : Fm String → PT
  | .fls => .fls
  | .tru => .tru
  | .lit l => .lit (litTxt l)
  | .not f => .neg (.br (toPT f))
  | .impl l r => .impl (brPT (6 ≤ rank l) (toPT l)) (brPT (6 ≤ rank r) (toPT r))
  | .equiv l r => .equiv (brPT (7 ≤ rank l) (toPT l)) (brPT (7 ≤ rank r) (toPT r))
  | .and fs => .conj (toPTs 4 fs)
  | .or fs => .disj (toPTs 5 fs)
  | .cc c k xs => .cmp (xs.map fun x => termMul (1, ⟨x, true⟩)) c (intTxt k)
  | .pbc c k ts => .cmp (ts.map termMul) c (intTxt k)
def toPTs (r : Nat) : List (Fm String) → List PT
  | [] => []
  | f :: fs => brPT (r ≤ rank f) (toPT f) :: toPTs r fs
end

theorem toPTs_map (r : Nat) (fs : List (Fm String)) : toPTs r fs = fs.map fun f => brPT (r ≤ rank f) (toPT f) := by
  induction fs with
  | nil => rfl
  | cons f fs ih => simp [toPTs, ih]

/-! ## levels -/

/-- the level of the grammar rule a connective belongs to -/
def opLev : Tok → Nat
  | .and => 4
  | .or => 5
  | .impl => 6
  | .equiv => 7
  | _ => 8

/-- a rule of level `j` ends before these tokens -/
def Stop (j : Nat) (r : List Tok) : Prop := numStart r = false ∧ ∀ t, r.head? = some t → j < opLev t

theorem Stop.mono {i j : Nat} {r : List Tok} (h : Stop j r) (hij : i ≤ j) : Stop i r := ⟨h.1, fun t ht => Nat.lt_of_le_of_lt hij (h.2 t ht)⟩

/-- the tokens are parsed by the rule of level `j` to this tree: 3 `lit`, 4 `conj`, 5 `disj`, 6 `impl`, 7 `equiv` -/
def Par (j : Nat) (u : List Tok) (t : PT) : Prop := ∀ n r, 8 * u.length + j ≤ n → Stop j r → match j with
  | 3 => pLit n (u ++ r) = some (t, r)
  | 4 => ∃ cs, pConjs n (u ++ r) = some (cs, r) ∧ conjOf cs = t
  | 5 => ∃ ds, pDisjs n (u ++ r) = some (ds, r) ∧ disjOf ds = t
  | 6 => pImpl n (u ++ r) = some (t, r)
  | 7 => pEquiv n (u ++ r) = some (t, r)
  | _ => False

theorem Par.lift34 {u : List Tok} {t : PT} (h : Par 3 u t) : Par 4 u t := by
  intro n r hn hs
  cases n with
  | zero => omega
  | succ n =>
    have h1 : pLit n (u ++ r) = some (t, r) := h n r (by omega) (hs.mono (by omega))
    refine ⟨[t], ?_, rfl⟩
    unfold pConjs
    rw [h1]
    cases r with
    | nil => rfl
    | cons x r => cases x <;> first | rfl | exact absurd (hs.2 _ rfl) (by decide)

theorem Par.lift45 {u : List Tok} {t : PT} (h : Par 4 u t) : Par 5 u t := by
  intro n r hn hs
  cases n with
  | zero => omega
  | succ n =>
    obtain ⟨cs, h1, h2⟩ : ∃ cs, pConjs n (u ++ r) = some (cs, r) ∧ conjOf cs = t := h n r (by omega) (hs.mono (by omega))
    refine ⟨[t], ?_, rfl⟩
    unfold pDisjs
    rw [h1]
    dsimp only
    cases r with
    | nil => rw [h2]
    | cons x r => cases x <;> first | (rw [h2]; done) | (simp only [h2]; done) | exact absurd (hs.2 _ rfl) (by decide)

theorem Par.lift56 {u : List Tok} {t : PT} (h : Par 5 u t) : Par 6 u t := by
  intro n r hn hs
  cases n with
  | zero => omega
  | succ n =>
    obtain ⟨cs, h1, h2⟩ : ∃ ds, pDisjs n (u ++ r) = some (ds, r) ∧ disjOf ds = t := h n r (by omega) (hs.mono (by omega))
    show pImpl (n + 1) (u ++ r) = some (t, r)
    unfold pImpl
    rw [h1]
    dsimp only
    cases r with
    | nil => rw [h2]
    | cons x r => cases x <;> first | (rw [h2]; done) | (simp only [h2]; done) | exact absurd (hs.2 _ rfl) (by decide)

theorem Par.lift67 {u : List Tok} {t : PT} (h : Par 6 u t) : Par 7 u t := by
  intro n r hn hs
  cases n with
  | zero => omega
  | succ n =>
    have h1 : pImpl n (u ++ r) = some (t, r) := h n r (by omega) (hs.mono (by omega))
    show pEquiv (n + 1) (u ++ r) = some (t, r)
    unfold pEquiv
    rw [h1]
    cases r with
    | nil => rfl
    | cons x r => cases x <;> first | rfl | exact absurd (hs.2 _ rfl) (by decide)

theorem Par.lift {i : Nat} {u : List Tok} {t : PT} (h : Par i u t) (h3 : 3 ≤ i) : ∀ {j : Nat}, i ≤ j → j ≤ 7 → Par j u t := by
  intro j hij hj
  have l4 : i ≤ 3 → Par 4 u t := fun hi => by obtain rfl : i = 3 := by omega
                                              exact h.lift34
  have l5 : i ≤ 4 → Par 5 u t := fun hi => by
    rcases Nat.lt_or_ge i 4 with h' | h'
    · exact (l4 (by omega)).lift45
    · obtain rfl : i = 4 := by omega
      exact h.lift45
  have l6 : i ≤ 5 → Par 6 u t := fun hi => by
    rcases Nat.lt_or_ge i 5 with h' | h'
    · exact (l5 (by omega)).lift56
    · obtain rfl : i = 5 := by omega
      exact h.lift56
  have l7 : i ≤ 6 → Par 7 u t := fun hi => by
    rcases Nat.lt_or_ge i 6 with h' | h'
    · exact (l6 (by omega)).lift67
    · obtain rfl : i = 6 := by omega
      exact h.lift67
  rcases Nat.lt_or_ge i j with h' | h'
  · match j, hj, h' with
    | 4, _, h' => exact l4 (by omega)
    | 5, _, h' => exact l5 (by omega)
    | 6, _, h' => exact l6 (by omega)
    | 7, _, h' => exact l7 (by omega)
    | 0, _, h' | 1, _, h' | 2, _, h' | 3, _, h' => omega
  · obtain rfl : i = j := by omega
    exact h

/-- from `simp` to `lit` -/
theorem par_simp {u : List Tok} {t : PT} (h : ∀ n r, 8 * u.length + 2 ≤ n → Stop 3 r → pSimp n (u ++ r) = some (t, r)) : Par 3 u t := by
  intro n r hn hs
  cases n with
  | zero => omega
  | succ n =>
    have h1 := h n r (by omega) hs
    show pLit (n + 1) (u ++ r) = some (t, r)
    cases hu : u ++ r with
    | nil =>
      rw [hu] at h1
      cases n <;> simp [pSimp] at h1
    | cons x y =>
      rw [hu] at h1
      cases x with
      | not => cases n <;> simp [pSimp] at h1
      | _ => unfold pLit; exact h1

theorem par_br {u : List Tok} {t : PT} (h : Par 7 u t) : Par 3 (.lbr :: (u ++ [.rbr])) (.br t) := by
  refine par_simp fun n r hn hs => ?_
  cases n with
  | zero => omega
  | succ n =>
    have h1 : pEquiv n (u ++ .rbr :: r) = some (t, .rbr :: r) := h n (.rbr :: r) (by simp at hn; omega) ⟨rfl, fun t ht => by cases ht; decide⟩
    simp only [List.cons_append, List.append_assoc, List.nil_append]
    unfold pSimp
    dsimp only
    rw [h1]

theorem par_neg {u : List Tok} {t : PT} (h : Par 3 u t) : Par 3 (.not :: u) (.neg t) := by
  intro n r hn hs
  cases n with
  | zero => omega
  | succ n =>
    have h1 : pLit n (u ++ r) = some (t, r) := h n r (by simp at hn; omega) hs
    show pLit (n + 1) (.not :: (u ++ r)) = some (.neg t, r)
    unfold pLit
    rw [h1]

/-! ## constraints -/

theorem pMul_term {t : Int × Lit String} (h : termOk t = true) (r : List Tok) : pMul (termToks t ++ r) = some (termMul t, r) := by
  simp only [termOk, Bool.and_eq_true, Bool.or_eq_true, Bool.not_eq_true'] at h
  have hl : litTok t.2 = .literal (litTxt t.2) := by
    unfold litTok
    rw [if_neg]
    rcases h.2 with h | h <;> simp [h]
  unfold termToks termMul
  split
  · simp only [hl, List.cons_append, List.nil_append]; rfl
  · simp only [hl, List.cons_append, List.nil_append]; rfl

theorem pAdd_sum : ∀ {ts : List (Int × Lit String)}, ts ≠ [] → (∀ t ∈ ts, termOk t = true) → ∀ {n : Nat} {r : List Tok}, ts.length ≤ n → (∀ x, r ≠ .add :: x) →
    pAdd n (sumToks ts ++ r) = some (ts.map termMul, r)
  | [], h, _, _, _, _, _ => absurd rfl h
  | [t], _, h, n, r, hn, hr => by
    cases n with
    | zero => simp at hn
    | succ n =>
      show pAdd (n + 1) (termToks t ++ r) = _
      unfold pAdd
      rw [pMul_term (h t (by simp))]
      split
      · rename_i e; cases e
      · rename_i e; cases e; exact absurd rfl (hr _)
      · rename_i e; cases e; rfl
  | t :: u :: ts, _, h, n, r, hn, hr => by
    cases n with
    | zero => simp at hn
    | succ n =>
      have ih := pAdd_sum (ts := u :: ts) (by simp) (fun t ht => h t (List.mem_cons_of_mem _ ht)) (n := n) (r := r) (by simp at hn ⊢; omega) hr
      show pAdd (n + 1) ((termToks t ++ .add :: sumToks (u :: ts)) ++ r) = _
      unfold pAdd
      rw [List.append_assoc, pMul_term (h t (by simp))]
      simp only [List.cons_append, ih]
      rfl

theorem sumToks_len : ∀ {ts : List (Int × Lit String)}, ts.length ≤ (sumToks ts).length
  | [] => by simp [sumToks]
  | [t] => by show 1 ≤ (termToks t).length; unfold termToks; split <;> simp
  | t :: u :: ts => by
    have := sumToks_len (ts := u :: ts)
    show _ ≤ (termToks t ++ .add :: sumToks (u :: ts)).length
    simp only [List.length_append, List.length_cons] at this ⊢
    omega

/-- the first tokens of a sum -/
theorem sum_head : ∀ {ts : List (Int × Lit String)}, ts ≠ [] → (∀ t ∈ ts, termOk t = true) → ∀ (c : Cmp) (r : List Tok),
    (∃ k x, sumToks ts ++ .cmp c :: r = .number k :: x ∧ numStart x = true) ∨ (∃ k x, sumToks ts ++ .cmp c :: r = .literal k :: x ∧ cmpStart x = true)
  | [], h, _, _, _ => absurd rfl h
  | t :: ts, _, h, c, r => by
    have ht := h t (by simp)
    simp only [termOk, Bool.and_eq_true, Bool.or_eq_true, Bool.not_eq_true'] at ht
    have hl : litTok t.2 = .literal (litTxt t.2) := by
      unfold litTok
      rw [if_neg]
      rcases ht.2 with h | h <;> simp [h]
    by_cases h1 : t.1 ≠ 1
    · left
      cases ts with
      | nil => exact ⟨intTxt t.1, _, by simp [sumToks, termToks, h1]; rfl, rfl⟩
      | cons u ts => exact ⟨intTxt t.1, _, by simp [sumToks, termToks, h1]; rfl, rfl⟩
    · right
      cases ts with
      | nil => exact ⟨litTxt t.2, _, by simp [sumToks, termToks, h1, hl]; rfl, rfl⟩
      | cons u ts => exact ⟨litTxt t.2, _, by simp [sumToks, termToks, h1, hl]; rfl, rfl⟩

theorem par_cmp {ts : List (Int × Lit String)} (hne : ts ≠ []) (h : ∀ t ∈ ts, termOk t = true) (c : Cmp) (k : Int) :
    Par 3 (sumToks ts ++ [.cmp c, .number (intTxt k)]) (.cmp (ts.map termMul) c (intTxt k)) := by
  refine par_simp fun n r hn hs => ?_
  cases n with
  | zero => omega
  | succ n =>
    have hlen := sumToks_len (ts := ts)
    have h1 := pAdd_sum hne h (n := n) (r := .cmp c :: .number (intTxt k) :: r) (by simp at hn; omega) (by intro x e; cases e)
    have h2 : pCmp n (sumToks ts ++ .cmp c :: .number (intTxt k) :: r) = some (.cmp (ts.map termMul) c (intTxt k), r) := by
      unfold pCmp; rw [h1]
    have e : sumToks ts ++ [.cmp c, .number (intTxt k)] ++ r = sumToks ts ++ .cmp c :: .number (intTxt k) :: r := by simp
    rw [e]
    rcases sum_head hne h c (.number (intTxt k) :: r) with ⟨w, x, e1, e2⟩ | ⟨w, x, e1, e2⟩
    · rw [e1] at h2 ⊢
      unfold pSimp
      dsimp only
      rw [if_pos e2, h2]
    · rw [e1] at h2 ⊢
      unfold pSimp
      dsimp only
      rw [if_pos e2, h2]

/-! ## formulas -/

def lev : Fm String → Nat
  | .and _ => 4
  | .or _ => 5
  | .impl _ _ => 6
  | .equiv _ _ => 7
  | _ => 3

theorem lev_ge (f : Fm String) : 3 ≤ lev f := by cases f <;> simp [lev]
theorem lev_le (f : Fm String) : lev f ≤ 7 := by cases f <;> simp [lev]
theorem lev_rank {f : Fm String} {k : Nat} (h : rank f < k) (hk : 4 ≤ k ∧ k ≤ 7) : lev f ≤ k - 1 := by cases f <;> simp [lev, rank] at * <;> omega

/-- an operand, in brackets if needed -/
theorem par_opd {f : Fm String} (h : Par (lev f) (toks f) (toPT f)) {k : Nat} (hk : 4 ≤ k ∧ k ≤ 7) : Par (k - 1) (brToks (k ≤ rank f) (toks f)) (brPT (k ≤ rank f) (toPT f)) := by
  by_cases hr : k ≤ rank f
  · simp only [brToks, brPT, hr, decide_true, if_true]
    exact (par_br (h.lift (lev_ge f) (lev_le f) (Nat.le_refl 7))).lift (Nat.le_refl 3) (by omega) (by omega)
  · simp only [brToks, brPT, hr, decide_false]
    exact h.lift (lev_ge f) (lev_rank (by omega) hk) (by omega)

theorem par_and : ∀ {fs : List (Fm String)}, fs ≠ [] → (∀ f ∈ fs, Par 3 (brToks (4 ≤ rank f) (toks f)) (brPT (4 ≤ rank f) (toPT f))) → ∀ n r, 8 * (toksN 4 .and fs).length + 4 ≤ n → Stop 4 r →
    pConjs n (toksN 4 .and fs ++ r) = some (toPTs 4 fs, r)
  | [], h, _, _, _, _, _ => absurd rfl h
  | [f], _, h, n, r, hn, hs => by
    cases n with
    | zero => omega
    | succ n =>
      have h1 : pLit n (brToks (4 ≤ rank f) (toks f) ++ r) = some (brPT (4 ≤ rank f) (toPT f), r) := h f (by simp) n r (by simp only [toksN] at hn; omega) (hs.mono (by omega))
      simp only [toksN, toPTs]
      unfold pConjs
      rw [h1]
      cases r with
      | nil => rfl
      | cons x r => cases x <;> first | rfl | exact absurd (hs.2 _ rfl) (by decide)
  | f :: g :: fs, _, h, n, r, hn, hs => by
    cases n with
    | zero => omega
    | succ n =>
      have hlen : (toksN 4 .and (f :: g :: fs)).length = (brToks (4 ≤ rank f) (toks f)).length + ((toksN 4 .and (g :: fs)).length + 1) := by
        rw [toksN]; simp
      have h1 : pLit n (brToks (4 ≤ rank f) (toks f) ++ .and :: (toksN 4 .and (g :: fs) ++ r)) = some (brPT (4 ≤ rank f) (toPT f), .and :: (toksN 4 .and (g :: fs) ++ r)) :=
        h f (by simp) n _ (by omega) ⟨rfl, fun t ht => by cases ht; decide⟩
      have ih := par_and (fs := g :: fs) (by simp) (fun x hx => h x (List.mem_cons_of_mem _ hx)) n r (by omega) hs
      have e : toksN 4 .and (f :: g :: fs) ++ r = brToks (4 ≤ rank f) (toks f) ++ .and :: (toksN 4 .and (g :: fs) ++ r) := by rw [toksN]; simp
      rw [e]
      unfold pConjs
      rw [h1]
      dsimp only
      rw [ih]
      rfl

theorem par_or : ∀ {fs : List (Fm String)}, fs ≠ [] → (∀ f ∈ fs, Par 4 (brToks (5 ≤ rank f) (toks f)) (brPT (5 ≤ rank f) (toPT f))) → ∀ n r, 8 * (toksN 5 .or fs).length + 5 ≤ n → Stop 5 r →
    pDisjs n (toksN 5 .or fs ++ r) = some (toPTs 5 fs, r)
  | [], h, _, _, _, _, _ => absurd rfl h
  | [f], _, h, n, r, hn, hs => by
    cases n with
    | zero => omega
    | succ n =>
      obtain ⟨cs, h1, h2⟩ : ∃ cs, pConjs n (brToks (5 ≤ rank f) (toks f) ++ r) = some (cs, r) ∧ conjOf cs = brPT (5 ≤ rank f) (toPT f) :=
        h f (by simp) n r (by simp only [toksN] at hn; omega) (hs.mono (by omega))
      simp only [toksN, toPTs]
      unfold pDisjs
      rw [h1]
      dsimp only
      cases r with
      | nil => rw [h2]
      | cons x r => cases x <;> first | (rw [h2]; done) | (simp only [h2]; done) | exact absurd (hs.2 _ rfl) (by decide)
  | f :: g :: fs, _, h, n, r, hn, hs => by
    cases n with
    | zero => omega
    | succ n =>
      have hlen : (toksN 5 .or (f :: g :: fs)).length = (brToks (5 ≤ rank f) (toks f)).length + ((toksN 5 .or (g :: fs)).length + 1) := by
        rw [toksN]; simp
      obtain ⟨cs, h1, h2⟩ : ∃ cs, pConjs n (brToks (5 ≤ rank f) (toks f) ++ .or :: (toksN 5 .or (g :: fs) ++ r)) = some (cs, .or :: (toksN 5 .or (g :: fs) ++ r)) ∧
          conjOf cs = brPT (5 ≤ rank f) (toPT f) := h f (by simp) n _ (by omega) ⟨rfl, fun t ht => by cases ht; decide⟩
      have ih := par_or (fs := g :: fs) (by simp) (fun x hx => h x (List.mem_cons_of_mem _ hx)) n r (by omega) hs
      have e : toksN 5 .or (f :: g :: fs) ++ r = brToks (5 ≤ rank f) (toks f) ++ .or :: (toksN 5 .or (g :: fs) ++ r) := by rw [toksN]; simp
      rw [e]
      unfold pDisjs
      rw [h1]
      dsimp only
      rw [ih, h2]
      rfl

theorem par_fm (f : Fm String) : printable f = true → Par (lev f) (toks f) (toPT f) := by
  induction f using Fm.ind with
  | hf => intro _; exact par_simp fun n r hn hs => by
            cases n with
            | zero => omega
            | succ n => simp only [toks, toPT]; rfl
  | ht => intro _; exact par_simp fun n r hn hs => by
            cases n with
            | zero => omega
            | succ n => simp only [toks, toPT]; rfl
  | hl l =>
    intro h
    refine par_simp fun n r hn hs => ?_
    cases n with
    | zero => omega
    | succ n =>
      have hc : cmpStart r = false := by
        have := hs.1
        unfold numStart at this
        split at this
        · cases this
        · exact this
      simp only [toks, toPT, litTok]
      split
      · rename_i hp
        simp only [Bool.and_eq_true] at hp
        show (if numStart r = true then _ else _) = _
        rw [if_neg (by simp [hs.1])]
        simp [litTxt, hp.1]
      · show (if cmpStart r = true then _ else _) = _
        rw [if_neg (by simp [hc])]
        rfl
  | hn f ih =>
    intro h
    unfold printable at h
    simp only [toks, toPT]
    exact par_neg (par_br ((ih h).lift (lev_ge f) (lev_le f) (Nat.le_refl 7)))
  | ha fs ih =>
    intro h
    simp only [printable, Bool.and_eq_true, decide_eq_true_eq, printableL_iff] at h
    intro n r hn hs
    have hne : fs ≠ [] := by rintro rfl; simp at h
    simp only [toks] at hn
    have := par_and hne (fun f hf => par_opd (ih f hf (h.1.2 f hf)) (k := 4) (by omega)) n r hn hs
    refine ⟨_, by simp only [toks]; exact this, ?_⟩
    match fs, h.1.1 with
    | f :: g :: fs, _ => simp only [toPT, toPTs, conjOf]
  | ho fs ih =>
    intro h
    simp only [printable, Bool.and_eq_true, decide_eq_true_eq, printableL_iff] at h
    intro n r hn hs
    have hne : fs ≠ [] := by rintro rfl; simp at h
    simp only [toks] at hn
    have := par_or hne (fun f hf => par_opd (ih f hf (h.1.2 f hf)) (k := 5) (by omega)) n r hn hs
    refine ⟨_, by simp only [toks]; exact this, ?_⟩
    match fs, h.1.1 with
    | f :: g :: fs, _ => simp only [toPT, toPTs, disjOf]
  | hi l r ihl ihr =>
    intro h
    simp only [printable, Bool.and_eq_true] at h
    intro n rest hn hs
    have pl := par_opd (ihl h.1) (k := 6) (by omega)
    have pr := par_opd (ihr h.2) (k := 6) (by omega)
    cases n with
    | zero => simp [lev] at hn
    | succ n =>
      have hlen : (toks (.impl l r)).length = (brToks (6 ≤ rank l) (toks l)).length + ((brToks (6 ≤ rank r) (toks r)).length + 1) := by rw [toks]; simp
      have hn : 8 * (toks (.impl l r)).length + 6 ≤ n + 1 := hn
      obtain ⟨ds, h1, h2⟩ : ∃ ds, pDisjs n (brToks (6 ≤ rank l) (toks l) ++ .impl :: (brToks (6 ≤ rank r) (toks r) ++ rest)) = some (ds, .impl :: (brToks (6 ≤ rank r) (toks r) ++ rest)) ∧
          disjOf ds = brPT (6 ≤ rank l) (toPT l) := pl n _ (by omega) ⟨rfl, fun t ht => by cases ht; decide⟩
      have h3 : pImpl n (brToks (6 ≤ rank r) (toks r) ++ rest) = some (brPT (6 ≤ rank r) (toPT r), rest) := pr.lift56 n rest (by omega) hs
      have e : toks (.impl l r) ++ rest = brToks (6 ≤ rank l) (toks l) ++ .impl :: (brToks (6 ≤ rank r) (toks r) ++ rest) := by rw [toks]; simp
      show pImpl (n + 1) (toks (.impl l r) ++ rest) = _
      rw [e]
      unfold pImpl
      rw [h1]
      dsimp only
      rw [h3, h2]
      simp only [toPT]
  | he l r ihl ihr =>
    intro h
    simp only [printable, Bool.and_eq_true] at h
    intro n rest hn hs
    have pl := par_opd (ihl h.1) (k := 7) (by omega)
    have pr := par_opd (ihr h.2) (k := 7) (by omega)
    cases n with
    | zero => simp [lev] at hn
    | succ n =>
      have hlen : (toks (.equiv l r)).length = (brToks (7 ≤ rank l) (toks l)).length + ((brToks (7 ≤ rank r) (toks r)).length + 1) := by rw [toks]; simp
      have hn : 8 * (toks (.equiv l r)).length + 7 ≤ n + 1 := hn
      have h1 : pImpl n (brToks (7 ≤ rank l) (toks l) ++ .equiv :: (brToks (7 ≤ rank r) (toks r) ++ rest)) = some (brPT (7 ≤ rank l) (toPT l), .equiv :: (brToks (7 ≤ rank r) (toks r) ++ rest)) :=
        pl n _ (by omega) ⟨rfl, fun t ht => by cases ht; decide⟩
      have h3 : pEquiv n (brToks (7 ≤ rank r) (toks r) ++ rest) = some (brPT (7 ≤ rank r) (toPT r), rest) := pr.lift67 n rest (by omega) hs
      have e : toks (.equiv l r) ++ rest = brToks (7 ≤ rank l) (toks l) ++ .equiv :: (brToks (7 ≤ rank r) (toks r) ++ rest) := by rw [toks]; simp
      show pEquiv (n + 1) (toks (.equiv l r) ++ rest) = _
      rw [e]
      unfold pEquiv
      rw [h1]
      dsimp only
      rw [h3]
      simp only [toPT]
  | hc c k xs =>
    intro h
    simp only [printable, Bool.and_eq_true, Bool.not_eq_true', List.isEmpty_eq_false_iff, List.all_eq_true] at h
    have := par_cmp (ts := xs.map fun x => (1, ⟨x, true⟩)) (by simpa using h.1) (by simpa [termOk] using h.2) c k
    simpa [toks, toPT, lev, Function.comp_def] using this
  | hp c k us =>
    intro h
    simp only [printable, Bool.and_eq_true, Bool.not_eq_true', List.isEmpty_eq_false_iff, List.all_eq_true] at h
    have := par_cmp (ts := us) h.1 h.2 c k
    simpa [toks, toPT, lev] using this

/-- the parse tree of a printed formula -/
theorem pFormula_toks {f : Fm String} (h : printable f = true) : pFormula (toks f) = some (toPT f) := by
  have h1 : pEquiv (8 * ((toks f).length + 1)) (toks f ++ []) = some (toPT f, []) := ((par_fm f h).lift (lev_ge f) (lev_le f) (Nat.le_refl 7)) _ [] (by omega) ⟨rfl, fun t ht => by cases ht⟩
  unfold pFormula
  rw [List.append_nil] at h1
  rw [h1]
  rfl

end Verif.Parser
