import Verif.Bdd.ReorderDown
import Verif.Bdd.Kernel
/-
The set-up of a reordering: references from the nodes, interaction matrix, chains.
-/
namespace Verif.Bdd

/-- during the count of the references: `W` are the nodes with references, `N` those whose children have been counted,
`E` are references counted for nodes that are not in `N` yet -/
structure Fr (c : Co) (x : Nat → Nat) (E N W : List Nat) (r : Nat → Nat) : Prop where
  nnd : N.Nodup
  sub : ∀ i ∈ N, i ∈ W
  pos : ∀ i, i ∈ W ↔ 2 ≤ i ∧ 0 < r i
  kid : ∀ i ∈ N, ∀ d ∈ kids c i, d < 2 ∨ d ∈ W
  ez : ∀ i ∈ E, i < 2 ∨ i ∈ W
  xz : ∀ i, 0 < x i → i ∈ W
  cnt : ∀ i ∈ W, maxref ≤ r i ∨ x i + E.count i + cnt c N i ≤ r i

section Init

variable {c : Co} {x : Nat → Nat} {E N W : List Nat} {nd : Nat → Node} {r : Nat}

theorem Fr.cnt_zero {rf : Nat → Nat} (h : Fr c x E N W rf) {i : Nat} (h2 : 2 ≤ i) (hi : i ∉ W) : Verif.Bdd.cnt c N i = 0 := by
  refine List.count_eq_zero.2 fun hm => ?_
  obtain ⟨j, h1, h3⟩ := List.mem_flatMap.1 hm
  rcases h.kid j h1 i h3 with h4 | h4
  · omega
  · exact hi h4

/-- another reference to a node counted before -/
theorem Fr.again (h : Fr c x E N W (refs nd)) (hr : r ∈ W) : Fr c x (r :: E) N W (refs (incRef nd r)) where
  nnd := h.nnd
  sub := h.sub
  pos i := by
    rw [h.pos, refs_incRef]
    by_cases hi : i = r ∧ refs nd r < maxref
    · rw [if_pos hi, hi.1]
      have := ((h.pos r).1 hr).2
      omega
    · rw [if_neg hi]
  kid := h.kid
  ez i hi := by
    rcases List.mem_cons.1 hi with rfl | hi
    · exact .inr hr
    · exact h.ez i hi
  xz := h.xz
  cnt i hi := by
    have := h.cnt i hi
    rw [refs_incRef, List.count_cons]
    by_cases hir : i = r
    · subst hir
      simp only [BEq.rfl, if_true]
      by_cases hm : refs nd i < maxref
      · rw [if_pos ⟨trivial, hm⟩]; omega
      · exact .inl (by rw [if_neg (fun e => hm e.2)]; omega)
    · have : ¬(r == i) = true := by simpa using fun e => hir e.symm
      rw [if_neg this, if_neg (by tauto)]
      omega

/-- a terminal -/
theorem Fr.term {rf : Nat → Nat} (h : Fr c x E N W rf) (hr : r < 2) : Fr c x (r :: E) N W rf where
  nnd := h.nnd
  sub := h.sub
  pos := h.pos
  kid := h.kid
  ez i hi := by
    rcases List.mem_cons.1 hi with rfl | hi
    · exact .inl hr
    · exact h.ez i hi
  xz := h.xz
  cnt i hi := by
    have := h.cnt i hi
    have h2 := ((h.pos i).1 hi).1
    have : ¬(r == i) = true := by simp; omega
    rw [List.count_cons, if_neg this]
    exact h.cnt i hi

/-- a node whose children have been counted -/
theorem Fr.root {rf : Nat → Nat} {lo : Nat} (h : Fr c x ((c r).2.2 :: lo :: E) N W rf) (hl : (c r).2.1 = some lo) (hr : r ∈ W)
    (hn : r ∉ N) : Fr c x E (r :: N) W rf where
  nnd := List.nodup_cons.2 ⟨hn, h.nnd⟩
  sub i hi := by
    rcases List.mem_cons.1 hi with rfl | hi
    · exact hr
    · exact h.sub i hi
  pos := h.pos
  kid i hi d hd := by
    rcases List.mem_cons.1 hi with rfl | hi
    · rw [kids_some hl] at hd
      simp at hd
      rcases hd with rfl | rfl
      · exact h.ez _ (by simp)
      · exact h.ez _ (by simp)
    · exact h.kid i hi d hd
  ez i hi := h.ez i (by simp [hi])
  xz := h.xz
  cnt i hi := by
    have := h.cnt i hi
    rw [cnt_cons, kids_some hl]
    simp only [List.count_cons, List.count_nil] at this ⊢
    omega

/-- a new node whose children have been counted -/
theorem Fr.new {lo : Nat} (h : Fr c x ((c r).2.2 :: lo :: E) N W (refs nd)) (hl : (c r).2.1 = some lo) (hr : r ∉ W) (h2 : 2 ≤ r) :
    Fr c x (r :: E) (r :: N) (r :: W) (refs (incRef nd r)) := by
  have hz : refs nd r = 0 := by
    by_cases h0 : refs nd r = 0
    · exact h0
    · exact absurd ((h.pos r).2 ⟨h2, by omega⟩) hr
  have hkid : ∀ d ∈ kids c r, d < 2 ∨ d ∈ W := fun d hd => by
    rw [kids_some hl] at hd
    simp at hd
    rcases hd with rfl | rfl
    · exact h.ez _ (by simp)
    · exact h.ez _ (by simp)
  have hi' : refs (incRef nd r) = fun j => if j = r then 1 else refs nd j := by
    funext j
    rw [refs_incRef, hz]
    by_cases hj : j = r
    · simp [hj, maxref]
    · simp [hj]
  refine ⟨List.nodup_cons.2 ⟨fun hm => hr (h.sub r hm), h.nnd⟩, ?_, ?_, ?_, ?_, ?_, ?_⟩
  · intro i hi
    rcases List.mem_cons.1 hi with rfl | hi
    · exact List.mem_cons_self
    · exact List.mem_cons_of_mem _ (h.sub i hi)
  · intro i
    rw [hi']
    simp only [List.mem_cons, h.pos]
    by_cases hir : i = r
    · simp [hir, h2]
    · simp [hir]
  · intro i hi d hd
    rcases List.mem_cons.1 hi with rfl | hi
    · exact (hkid d hd).imp id (List.mem_cons_of_mem _)
    · exact (h.kid i hi d hd).imp id (List.mem_cons_of_mem _)
  · intro i hi
    rcases List.mem_cons.1 hi with rfl | hi
    · exact .inr List.mem_cons_self
    · exact (h.ez i (by simp [hi])).imp id (List.mem_cons_of_mem _)
  · intro i hi
    exact List.mem_cons_of_mem _ (h.xz i hi)
  · intro i hi
    rw [hi']
    by_cases hir : i = r
    · subst hir
      have hx : x i = 0 := by
        by_cases h0 : x i = 0
        · exact h0
        · exact absurd (h.xz i (by omega)) hr
      have he : ∀ d, 2 ≤ d → d ∉ W → E.count d = 0 := fun d h2 hd => List.count_eq_zero.2 fun hm => by
        rcases h.ez d (by simp [hm]) with h' | h'
        · omega
        · exact hd h'
      have hk : (kids c i).count i = 0 := List.count_eq_zero.2 fun hm => by
        rcases hkid i hm with h' | h'
        · omega
        · exact hr h'
      rw [cnt_cons, hk, h.cnt_zero h2 hr, hx, List.count_cons, he i h2 hr]
      simp
    · have hiW : i ∈ W := (List.mem_cons.1 hi).resolve_left hir
      have := h.cnt i hiW
      have hb : ¬(r == i) = true := by simpa using fun e => hir e.symm
      simp only [if_neg hir]
      rw [cnt_cons, kids_some hl, List.count_cons, if_neg hb]
      simp only [List.count_cons, List.count_nil] at this ⊢
      omega

/-- the nodes of the kernel with variables for levels -/
structure Lift (k : K) (l2v : Nat → Nat) (c : Co) : Prop where
  eq : ∀ i, 2 ≤ i → (k.nd i).low ≠ none → c i = (l2v (k.nd i).lvl, (k.nd i).low, (k.nd i).high)

theorem addref_spec {k : K} {l2v : Nat → Nat} {n : Nat} {mat : List (Nat × Nat)} :
    ∀ {f r d : Nat} {t : T} {nd : Nat → Node} {dep E N W : List Nat}, Lift k l2v (cores nd) → Rep k.nd r t → Ord n d t → n < f + d → d ≤ n →
    Fr (cores nd) x E N W (refs nd) →
    ∃ nd' dep' A, addref n mat f nd dep r = some (nd', dep') ∧ cores nd' = cores nd ∧
      Fr (cores nd) x (r :: E) (A ++ N) (A ++ W) (refs nd') ∧
      (∀ i ∈ A, 2 ≤ i ∧ d ≤ (k.nd i).lvl ∧ i ∉ W ∧ (k.nd i).low ≠ none) ∧
      ∀ w ∈ dep, w < n → w ∈ dep'
  | 0, r, d, t, nd, dep, E, N, W, hl, hr, ho, hf, hdn, h => by
    omega
  | f + 1, r, d, t, nd, dep, E, N, W, hl, hr, ho, hf, hdn, h => by
    unfold addref
    by_cases h2 : r < 2
    · rw [if_pos h2]
      exact ⟨nd, dep, [], rfl, rfl, h.term h2, by simp, fun _ h _ => h⟩
    · rw [if_neg h2]
      by_cases hz : (nd r).ref = 0
      · rw [if_pos hz]
        obtain ⟨lo, l, hh, e1, e2, e3, rfl⟩ := hr.ge2 (by omega)
        obtain ⟨o1, o2, o3, o4, o5⟩ := ho
        have hc := hl.eq r (by omega) (by simp [e1])
        have hlo : (nd r).low = some lo := by
          have := congrArg (fun z => z.2.1) hc
          exact this.trans e1
        have hhi : (nd r).high = (k.nd r).high := congrArg (fun z => z.2.2) hc
        obtain ⟨nd1, dep1, A1, p1, p2, p3, p4, p5⟩ := addref_spec (mat := mat) (f := f) (dep := (nd r).lvl :: dep) hl e2 o4 (by omega) (by omega) h
        have hl1 : Lift k l2v (cores nd1) := by rw [p2]; exact hl
        have hhi1 : (nd1 r).high = (k.nd r).high := by
          have := congrArg (fun z => z.2.2) (congrFun p2 r)
          exact this.trans hhi
        rw [← p2] at p3
        obtain ⟨nd2, dep2, A2, q1, q2, q3, q4, q5⟩ := addref_spec (mat := mat) (f := f) (dep := dep1) hl1 e3 o5 (by omega) (by omega) p3
        have hrW : r ∉ W := fun hm => by
          have := ((h.pos r).1 hm).2
          have hz : refs nd r = 0 := hz
          omega
        have hrA : r ∉ A2 ++ (A1 ++ W) := by
          simp only [List.mem_append, not_or]
          exact ⟨fun hm => by have := (q4 r hm).2.1; omega, fun hm => by have := (p4 r hm).2.1; omega, hrW⟩
        have ec1 : (cores nd1 r).2.2 = (k.nd r).high := hhi1
        have ec0 : (cores nd1 r).2.1 = some lo := by rw [p2]; exact hlo
        have := Fr.new (r := r) (lo := lo) (nd := nd2) (by rw [ec1]; exact q3) ec0 hrA (by omega)
        refine ⟨incRef nd2 r, dep2, r :: (A2 ++ A1), ?_, ?_, ?_, ?_, ?_⟩
        · rw [hlo]
          show Option.bind (addref n mat f nd ((nd r).lvl :: dep) lo) _ = _
          rw [p1]
          show Option.bind (addref n mat f nd1 dep1 (nd1 r).high) _ = _
          rw [hhi1, q1]
          rfl
        · rw [cores_incRef, q2, p2]
        · rw [← p2]
          simpa using this
        · intro i hi
          rcases List.mem_cons.1 hi with rfl | hi
          · exact ⟨by omega, o1, hrW, by simp [e1]⟩
          · rcases List.mem_append.1 hi with hi | hi
            · obtain ⟨g1, g2, g3, g4⟩ := q4 i hi
              exact ⟨g1, by omega, fun hm => g3 (List.mem_append_right _ hm), g4⟩
            · obtain ⟨g1, g2, g3, g4⟩ := p4 i hi
              exact ⟨g1, by omega, g3, g4⟩
        · exact fun w hw hn => q5 w (p5 w (List.mem_cons_of_mem _ hw) hn) hn
      · rw [if_neg hz]
        have hrW : r ∈ W := (h.pos r).2 ⟨by omega, Nat.pos_of_ne_zero hz⟩
        refine ⟨_, _, [], rfl, cores_incRef _ _, h.again hrW, by simp, fun w hw hn => ?_⟩
        simp [hw, hn]

theorem refRoots_spec {P : Par} {k : K} {l2v : Nat → Nat} (hi : Inv P k) :
    ∀ {rs : List Nat} {nd : Nat → Node} {dep : List Nat} {mat : List (Nat × Nat)} {N W : List Nat}, Lift k l2v (cores nd) →
    rs.Nodup → (∀ r ∈ rs, r ∈ W ∧ r ∉ N) → (∀ i ∈ W, i ∈ N ∨ i ∈ rs) → (∀ i ∈ W, (k.nd i).low ≠ none) →
    Fr (cores nd) x [] N W (refs nd) →
    ∃ nd' mat' W', refRoots k.n rs nd dep mat = some (nd', mat') ∧ cores nd' = cores nd ∧
      (∃ N', Fr (cores nd) x [] N' W' (refs nd') ∧ ∀ i ∈ W', i ∈ N') ∧ (∀ i ∈ W', (k.nd i).low ≠ none) ∧
      (rs ≠ [] → ∀ a b, a < k.n → b < k.n → (a ∈ dep ∨ ∃ r ∈ rs, (cores nd r).1 = a) → (b ∈ dep ∨ ∃ r ∈ rs, (cores nd r).1 = b) →
        (a, b) ∈ mat')
  | [], nd, dep, mat, N, W, hl, _, h1, h2, h3, h => by
    exact ⟨nd, mat, W, rfl, rfl, ⟨N, h, fun i hi => (h2 i hi).resolve_right (by simp)⟩, h3, by simp⟩
  | r :: rs, nd, dep, mat, N, W, hl, hnd, h1, h2, h3, h => by
    obtain ⟨rW, rN⟩ := h1 r (by simp)
    have r2 := ((h.pos r).1 rW).1
    obtain ⟨_, t, ht, ho⟩ := hi.live r r2 (h3 r rW)
    obtain ⟨lo, l, hh, e1, e2, e3, rfl⟩ := ht.ge2 r2
    obtain ⟨o1, o2, o3, o4, o5⟩ := ho
    have hc := hl.eq r r2 (by simp [e1])
    have hlo : (nd r).low = some lo := by
      have := congrArg (fun z => z.2.1) hc
      exact this.trans e1
    have hhi : (nd r).high = (k.nd r).high := congrArg (fun z => z.2.2) hc
    obtain ⟨nd1, dep1, A1, p1, p2, p3, p4, p5⟩ := addref_spec (mat := mat) (f := k.n + 1) (dep := (nd r).lvl :: dep) hl e2 o4 (by omega) (by omega) h
    have hl1 : Lift k l2v (cores nd1) := by rw [p2]; exact hl
    have hhi1 : (nd1 r).high = (k.nd r).high := by
      have := congrArg (fun z => z.2.2) (congrFun p2 r)
      exact this.trans hhi
    rw [← p2] at p3
    obtain ⟨nd2, dep2, A2, q1, q2, q3, q4, q5⟩ := addref_spec (mat := mat) (f := k.n + 1) (dep := dep1) hl1 e3 o5 (by omega) (by omega) p3
    have ec1 : (cores nd1 r).2.2 = (k.nd r).high := hhi1
    have ec0 : (cores nd1 r).2.1 = some lo := by rw [p2]; exact hlo
    have hA : ∀ i, i ∈ W → i ∉ A2 ∧ i ∉ A1 := fun i hW =>
      ⟨fun hm => (q4 i hm).2.2.1 (List.mem_append_right _ hW), fun hm => (p4 i hm).2.2.1 hW⟩
    have hF := Fr.root (r := r) (lo := lo) (rf := refs nd2) (by rw [ec1]; exact q3) ec0 (by simp [rW]) (by
      simp only [List.mem_append, not_or]
      exact ⟨(hA r rW).1, (hA r rW).2, rN⟩)
    rw [← q2] at hF
    have hl2 : Lift k l2v (cores nd2) := by rw [q2]; exact hl1
    have hnd' := List.nodup_cons.1 hnd
    obtain ⟨nd3, mat3, W3, s1, s2, s3, s4, s5⟩ := refRoots_spec hi (rs := rs) (dep := dep2) (mat := addDeps k.n mat dep2) hl2 hnd'.2
      (fun i hir => by
        obtain ⟨iW, iN⟩ := h1 i (by simp [hir])
        refine ⟨by simp [iW], ?_⟩
        simp only [List.mem_cons, List.mem_append, not_or]
        refine ⟨?_, (hA i iW).1, (hA i iW).2, iN⟩
        rintro rfl
        exact hnd'.1 hir)
      (fun i hiW => by
        simp only [List.mem_append] at hiW
        simp only [List.mem_cons, List.mem_append]
        rcases hiW with h' | h' | h'
        · exact .inl (.inr (.inl h'))
        · exact .inl (.inr (.inr (.inl h')))
        · rcases h2 i h' with g | g
          · exact .inl (.inr (.inr (.inr g)))
          · rcases List.mem_cons.1 g with g | g
            · exact .inl (.inl g)
            · exact .inr g)
      (fun i hiW => by
        simp only [List.mem_append] at hiW
        rcases hiW with h' | h' | h'
        · exact (q4 i h').2.2.2
        · exact (p4 i h').2.2.2
        · exact h3 i h') hF
    have ec : cores nd2 = cores nd := by rw [q2, p2]
    refine ⟨nd3, mat3, W3, ?_, by rw [s2, ec], by rw [← ec]; exact s3, s4, fun _ a b ha hb hva hvb => ?_⟩
    · unfold refRoots
      rw [hlo]
      show Option.bind (addref k.n mat (k.n + 1) nd ((nd r).lvl :: dep) lo) _ = _
      rw [p1]
      show Option.bind (addref k.n mat (k.n + 1) nd1 dep1 (nd1 r).high) _ = _
      rw [hhi1, q1]
      exact s1
    · have key : ∀ v, v < k.n → (v ∈ dep ∨ ∃ i ∈ r :: rs, (cores nd i).1 = v) → v ∈ dep2 ∨ ∃ i ∈ rs, (cores nd2 i).1 = v := by
        intro v hv hd
        rw [ec]
        rcases hd with hd | ⟨i, hir, hd⟩
        · exact .inl (q5 v (p5 v (List.mem_cons_of_mem _ hd) hv) hv)
        · rcases List.mem_cons.1 hir with rfl | hir
          · exact .inl (q5 v (p5 v (by rw [← hd]; exact List.mem_cons_self) hv) hv)
          · exact .inr ⟨i, hir, hd⟩
      by_cases hrs : rs = []
      · subst hrs
        have ka := (key a ha hva).resolve_right (by simp)
        have kb := (key b hb hvb).resolve_right (by simp)
        have : (nd3, mat3) = (nd2, addDeps k.n mat dep2) := by
          have := s1
          unfold refRoots at this
          exact (Option.some.inj this).symm
        have hm : mat3 = addDeps k.n mat dep2 := congrArg Prod.snd this
        rw [hm]
        unfold addDeps
        simp only [List.mem_flatMap, List.mem_map, List.mem_filter, List.mem_range]
        exact ⟨a, ha, b, ⟨hb, by simp [ka, kb]⟩, rfl⟩
      · exact s5 hrs a b ha hb (key a ha hva) (key b hb hvb)

/-! ### Functions -/

open Classical in
/-- the function of a node, over the variables -/
noncomputable def dOf (nd : Nat → Node) (l2v : Nat → Nat) (i : Nat) : Fn :=
  if h : ∃ t, Rep nd i t then fun ρ => h.choose.eval fun l => ρ (l2v l) else fun _ => false

theorem dOf_rep {l2v : Nat → Nat} {i : Nat} {t : T} (h : Rep nd i t) : dOf nd l2v i = fun ρ => t.eval fun l => ρ (l2v l) := by
  have hh : ∃ t, Rep nd i t := ⟨t, h⟩
  unfold dOf
  rw [dif_pos hh, hh.choose_spec.fun h]

/-- the tables of a kernel are inverse to each other -/
structure Tabs (n : Nat) (l2v v2l : Nat → Nat) : Prop where
  lv : ∀ v, v < n → v2l v < n ∧ l2v (v2l v) = v
  vl : ∀ l, l < n → l2v l < n ∧ v2l (l2v l) = l

theorem Tabs.canon {n : Nat} {l2v v2l : Nat → Nat} (h : Tabs n l2v v2l) {s t : T} {m m' : Nat} (hs : Ord n m s) (ht : Ord n m' t)
    (he : (fun ρ : Nat → Bool => s.eval fun l => ρ (l2v l)) = fun ρ => t.eval fun l => ρ (l2v l)) : s = t := by
  refine Ord.canon s t hs ht fun σ => ?_
  have := congrFun he fun v => σ (v2l v)
  have hc : ∀ {u : T} {d : Nat}, Ord n d u → u.eval (fun l => σ (v2l (l2v l))) = u.eval σ := fun ho =>
    ho.agree fun l _ hl => by rw [(h.vl l hl).2]
  rw [← hc hs, ← hc ht]
  exact this

theorem Cr.init {P : Par} {k : K} {l2v v2l : Nat → Nat} {L : List Nat} {c : Co} (hi : Inv P k) (hlv : Lv k) (ht : Tabs k.n l2v v2l)
    (hL : L.Nodup) (hlive : ∀ i ∈ L, 2 ≤ i ∧ (k.nd i).low ≠ none) (hc : ∀ i ∈ L, c i = (l2v (k.nd i).lvl, (k.nd i).low, (k.nd i).high))
    (h0 : ∀ i, i < 2 → (c i).1 = k.n) (hout : ∀ i, k.size ≤ i → (c i).2.1 = none)
    (hkid : ∀ i ∈ L, ∀ d ∈ kids c i, d < 2 ∨ d ∈ L) : Cr k.n k.size v2l 0 0 [] (dOf k.nd l2v) L c := by
  have hrep : ∀ i, (i < 2 ∨ i ∈ L) → ∃ t, Rep k.nd i t ∧ Ord k.n 0 t := fun i h => by
    rcases h with h | h
    · exact ⟨_, .leaf h, trivial⟩
    · obtain ⟨h2, hl⟩ := hlive i h
      exact (hi.live i h2 hl).2
  have hlvl : ∀ i ∈ L, (k.nd i).lvl < k.n := fun i h => by
    obtain ⟨t, h1, h2⟩ := hrep i (.inr h)
    obtain ⟨lo, l, hh, _, _, _, rfl⟩ := h1.ge2 (hlive i h).1
    exact h2.2.1
  have hne : ∀ i ∈ L, ∃ lo tl th, (k.nd i).low = some lo ∧ Rep k.nd lo tl ∧ Rep k.nd (k.nd i).high th ∧ tl ≠ th ∧
      Ord k.n ((k.nd i).lvl + 1) tl ∧ Ord k.n ((k.nd i).lvl + 1) th := fun i h => by
    obtain ⟨t, h1, h2⟩ := hrep i (.inr h)
    obtain ⟨lo, l, hh, e1, e2, e3, rfl⟩ := h1.ge2 (hlive i h).1
    exact ⟨lo, l, hh, e1, e2, e3, h2.2.2.1, h2.2.2.2.1, h2.2.2.2.2⟩
  have hind : ∀ {u : T} {d w : Nat}, Ord k.n d u → w < k.n → v2l w < d → Ind (fun ρ => u.eval fun l => ρ (l2v l)) w :=
    fun ho hw hd ρ b => ho.agree fun l hl hn => setv_ne _ _ fun e => by
      have := (ht.vl l hn).2
      rw [e] at this
      omega
  refine ⟨hi.sz, hL, fun i h => ⟨(hlive i h).1, (hi.live i (hlive i h).1 (hlive i h).2).1⟩, ?_, ?_, h0, ?_, ?_, ?_, ?_, by simp, ?_, by simp,
    by simp, by simp, ?_, hout⟩
  · rw [dOf_rep Rep.ff]; rfl
  · rw [dOf_rep Rep.tt]; rfl
  · intro i h
    obtain ⟨lo, tl, th, e1, e2, e3, e4, e5, e6⟩ := hne i h
    have hk := hkid i h
    have h1 : (c i).2.1 = some lo := by rw [hc i h]; exact e1
    rw [kids_some h1] at hk
    have h2 : (c i).2.2 = (k.nd i).high := by rw [hc i h]
    have h3 : (c i).1 = l2v (k.nd i).lvl := by rw [hc i h]
    refine ⟨lo, h1, by rw [h3]; exact (ht.vl _ (hlvl i h)).1, hk lo (by simp), hk _ (by simp), fun ρ => ?_⟩
    rw [h2, h3, dOf_rep (.node (hlive i h).1 e1 e2 e3), dOf_rep e2, dOf_rep e3]
    rfl
  · intro i j hI hJ he
    obtain ⟨t1, a1, a2⟩ := hrep i hI
    obtain ⟨t2, b1, b2⟩ := hrep j hJ
    rw [dOf_rep a1, dOf_rep b1] at he
    have := ht.canon a2 b2 he
    subst this
    exact hi.idx a1 b1
  · intro i h w hw ho _
    rw [hc i h] at ho
    have ho : v2l w < v2l (l2v (k.nd i).lvl) := ho
    rw [(ht.vl _ (hlvl i h)).2] at ho
    obtain ⟨t, h1, h2⟩ := hrep i (.inr h)
    obtain ⟨lo, l, hh, _, _, _, rfl⟩ := h1.ge2 (hlive i h).1
    rw [dOf_rep h1]
    exact hind (d := (k.nd i).lvl) ⟨Nat.le_refl _, h2.2⟩ hw ho
  · intro i h
    obtain ⟨lo, tl, th, e1, e2, e3, e4, e5, e6⟩ := hne i h
    have h3 : (c i).1 = l2v (k.nd i).lvl := by rw [hc i h]
    obtain ⟨g1, g2⟩ := ht.vl _ (hlvl i h)
    rw [h3]
    refine dep_ite (f0 := dOf k.nd l2v lo) (f1 := dOf k.nd l2v (k.nd i).high) (fun ρ => ?_) ?_ ?_ ?_
    · rw [dOf_rep (.node (hlive i h).1 e1 e2 e3), dOf_rep e2, dOf_rep e3]
      rfl
    · rw [dOf_rep e2]; exact hind e5 g1 (by omega)
    · rw [dOf_rep e3]; exact hind e6 g1 (by omega)
    · intro he
      rw [dOf_rep e2, dOf_rep e3] at he
      exact e4 (ht.canon e5 e6 he)
  · intro i h _ d hd h2
    have hdL : d ∈ L := (hkid i h d hd).resolve_left (by omega)
    obtain ⟨lo, tl, th, e1, e2, e3, e4, e5, e6⟩ := hne i h
    have h1 : (c i).2.1 = some lo := by rw [hc i h]; exact e1
    rw [kids_some h1, hc i h] at hd
    rw [hc i h, hc d hdL]
    show v2l (l2v (k.nd i).lvl) < v2l (l2v (k.nd d).lvl)
    rw [(ht.vl _ (hlvl i h)).2, (ht.vl _ (hlvl d hdL)).2]
    simp at hd
    have key : ∀ u, Rep k.nd d u → Ord k.n ((k.nd i).lvl + 1) u → (k.nd i).lvl < (k.nd d).lvl := fun u r1 r2 => by
      obtain ⟨_, _, _, _, _, _, rfl⟩ := r1.ge2 h2
      exact r2.1
    rcases hd with rfl | rfl
    · exact key _ e2 e5
    · exact key _ e3 e6
  · intro v w hv hw e
    rw [← (ht.lv v hv).2, e, (ht.lv w hw).2]

/-- the chains and the free list hold the nodes with references, and the others -/
theorem Chn.init {Q : RPar} {size : Nat} {L : List Nat} (hL : ∀ i, i ∈ L ↔ 2 ≤ i ∧ 0 < (nd i).ref)
    (hr : ∀ i ∈ L, i < size) : Chn Q size size [] L (chains Q size nd)
      ((List.range' 2 (size - 2)).filter fun i => (nd i).ref == 0) (cores nd) := by
  constructor
  · intro v p i hi
    unfold chains at hi
    obtain ⟨hr, hc⟩ := List.mem_filter.1 hi
    have h2 : 2 ≤ i := by simp at hr; omega
    cases hl : (nd i).low with
    | none => rw [hl] at hc; cases hc
    | some lo =>
      rw [hl] at hc
      simp at hc
      exact ⟨(hL i).2 ⟨h2, hc.1.1⟩, by simp, hc.1.2, lo, hl, hc.2⟩
  · intro i hi _ lo hl
    obtain ⟨r1, r2⟩ := (hL i).1 hi
    have r3 := hr i hi
    unfold chains
    refine List.mem_filter.2 ⟨by simp; omega, ?_⟩
    have hl' : (nd i).low = some lo := hl
    rw [hl']
    simp [r2]
    exact ⟨rfl, rfl⟩
  · intro v p
    exact List.Nodup.filter _ List.nodup_range'
  · intro i hi
    obtain ⟨k1, k2⟩ := List.mem_filter.1 hi
    simp at k1 k2
    exact ⟨fun hm => by have := ((hL i).1 hm).2; omega, by omega, by omega⟩
  · exact List.Nodup.filter _ List.nodup_range'

/-- the external references -/
def xRef (k : K) (i : Nat) : Nat := if 2 ≤ i then (k.nd i).ref else 0

theorem mem_extRoots {size : Nat} {nd : Nat → Node} {i : Nat} : i ∈ extRoots size nd ↔ (2 ≤ i ∧ i < size) ∧ 0 < (nd i).ref := by
  simp [extRoots, List.mem_filter, List.mem_range'_1]
  omega

theorem rInit_spec {P : Par} {Q : RPar} {k : K} {l2v v2l : Nat → Nat} (hi : Inv P k) (hlv : Lv k) (ht : Tabs k.n l2v v2l)
    (hv : ∀ l, l < k.n → ∃ p, 2 ≤ p ∧ 0 < (k.nd p).ref ∧ (k.nd p).lvl = l) :
    ∃ s L, rInit Q k l2v v2l = some s ∧ RI Q k.size (xRef k) (dOf k.nd l2v) L s ∧ s.n = k.n ∧ s.v2l = v2l ∧ s.l2v = l2v := by
  obtain ⟨nd0, e0⟩ : ∃ nd0 : Nat → Node, nd0 = fun i => if 2 ≤ i ∧ i < k.size then { k.nd i with lvl := l2v (k.nd i).lvl } else k.nd i := ⟨_, rfl⟩
  have hnl : ∀ i, 2 ≤ i → (k.nd i).low ≠ none → i < k.size := fun i h2 hl => (hi.live i h2 hl).1
  have href : ∀ i, (nd0 i).ref = (k.nd i).ref := fun i => by rw [e0]; dsimp only; split <;> rfl
  have hlow : ∀ i, (nd0 i).low = (k.nd i).low := fun i => by rw [e0]; dsimp only; split <;> rfl
  have hlift : Lift k l2v (cores nd0) := ⟨fun i h2 hl => by
    unfold cores
    rw [e0]
    dsimp only
    rw [if_pos ⟨h2, hnl i h2 hl⟩]
    rfl⟩
  have hW : ∀ i, i ∈ extRoots k.size nd0 ↔ 2 ≤ i ∧ 0 < refs nd0 i := fun i => by
    rw [mem_extRoots]
    constructor
    · exact fun h => ⟨h.1.1, h.2⟩
    · intro h
      refine ⟨⟨h.1, hnl i h.1 (hi.rlive i h.1 ?_)⟩, h.2⟩
      rw [← href]; exact h.2
  have hF : Fr (cores nd0) (xRef k) [] [] (extRoots k.size nd0) (refs nd0) := by
    refine ⟨by simp, by simp, hW, by simp, by simp, fun i hx => ?_, fun i hi' => .inr ?_⟩
    · unfold xRef at hx
      split at hx
      · next h2 => exact (hW i).2 ⟨h2, by show 0 < (nd0 i).ref; rw [href]; exact hx⟩
      · omega
    · unfold xRef
      rw [if_pos ((hW i).1 hi').1]
      show (k.nd i).ref + _ + 0 ≤ (nd0 i).ref
      rw [href]; simp
  obtain ⟨nd1, mat, W, r1, r2, ⟨N, r3, r4⟩, r5, r6⟩ := refRoots_spec (x := xRef k) (rs := extRoots k.size nd0) (dep := []) (mat := []) hi hlift
    (List.Nodup.filter _ List.nodup_range') (fun r hr => ⟨hr, by simp⟩) (fun i hi => .inr hi)
    (fun i hi' => hi.rlive i ((hW i).1 hi').1 (by rw [← href]; exact ((hW i).1 hi').2)) hF
  have hmem : ∀ i, i ∈ N ↔ 2 ≤ i ∧ 0 < (nd1 i).ref := fun i =>
    ⟨fun h => (r3.pos i).1 (r3.sub i h), fun h => r4 i ((r3.pos i).2 h)⟩
  have hsz : ∀ i ∈ N, i < k.size := fun i h => hnl i ((hmem i).1 h).1 (r5 i (r3.sub i h))
  obtain ⟨nd2, e2⟩ : ∃ nd2 : Nat → Node, nd2 = fun i => if 2 ≤ i ∧ i < k.size ∧ (nd1 i).ref = 0 then { nd1 i with low := none } else nd1 i := ⟨_, rfl⟩
  have href2 : ∀ i, (nd2 i).ref = (nd1 i).ref := fun i => by rw [e2]; dsimp only; split <;> rfl
  have hcore2 : ∀ i, i < 2 ∨ i ∈ N → nd2 i = nd1 i := fun i h => by
    rw [e2]
    dsimp only
    rw [if_neg]
    rintro ⟨h1, _, h3⟩
    rcases h with h | h
    · omega
    · have := ((hmem i).1 h).2; omega
  have hc2 : ∀ i, i < 2 ∨ i ∈ N → cores nd2 i = cores nd0 i := fun i h => by
    rw [← r2]
    unfold cores
    rw [hcore2 i h]
  have hl2 : ∀ i ∈ N, cores nd2 i = (l2v (k.nd i).lvl, (k.nd i).low, (k.nd i).high) := fun i h => by
    rw [hc2 i (.inr h)]
    exact hlift.eq i ((hmem i).1 h).1 (r5 i (r3.sub i h))
  refine ⟨{ n := k.n, size := k.size, nd := nd2, tsz := k.size, ch := chains Q k.size nd2
            free := (List.range' 2 (k.size - 2)).filter fun i => (nd2 i).ref == 0
            l2v := l2v, v2l := v2l, mat := mat, resized := false }, N, ?_, ?_, rfl, rfl, rfl⟩
  · unfold rInit
    simp only [← e0]
    show Option.bind (refRoots k.n (extRoots k.size nd0) nd0 [] []) _ = _
    rw [r1]
    rw [e2]
    rfl
  · refine ⟨⟨?_, ?_, ?_⟩, ht.lv, ht.vl, ?_, Nat.le_refl _, Nat.le_refl _⟩
    · refine Cr.init hi hlv ht r3.nnd (fun i h => ⟨((hmem i).1 h).1, r5 i (r3.sub i h)⟩) hl2 ?_ ?_ ?_
      · intro i h
        show (cores nd2 i).1 = _
        rw [hc2 i (.inl h)]
        show (nd0 i).lvl = _
        rw [e0]
        dsimp only
        rw [if_neg (by omega)]
        have : i = 0 ∨ i = 1 := by omega
        rcases this with rfl | rfl
        · exact hlv.1
        · exact hlv.2
      · intro i h
        show (nd2 i).low = none
        have h1 : (nd1 i).low = (nd0 i).low := congrArg (fun z => z.2.1) (congrFun r2 i)
        rw [e2]
        dsimp only
        rw [if_neg (by omega), h1, hlow]
        by_cases hl : (k.nd i).low = none
        · exact hl
        · have := hnl i (by have := hi.sz; omega) hl; omega
      · intro i h d hd
        rw [kids_congr (hc2 i (.inr h))] at hd
        exact (r3.kid i h d hd).imp id (r4 d)
    · exact Chn.init (fun i => by rw [hmem, href2]) hsz
    · constructor
      · intro i h
        have := r3.cnt i (r3.sub i h)
        show maxref ≤ (nd2 i).ref ∨ _ ≤ (nd2 i).ref
        rw [href2]
        show _ ∨ xRef k i + _ + cnt (cores nd2) N i ≤ _
        rw [cnt_congr (fun j hj => hc2 j (.inr hj))]
        exact this
      · intro i h2 hn
        show (nd2 i).ref = 0
        rw [href2]
        by_cases h0 : (nd1 i).ref = 0
        · exact h0
        · exact absurd ((hmem i).2 ⟨h2, by omega⟩) hn
      · exact fun i hx => r4 i (r3.xz i hx)
      · simp
    · intro v w hv' hw'
      have key : ∀ u, u < k.n → ∃ r ∈ extRoots k.size nd0, (cores nd0 r).1 = u := fun u hu => by
        obtain ⟨a1, a2⟩ := ht.lv u hu
        obtain ⟨p, p1, p2, p3⟩ := hv _ a1
        have pl := hi.rlive p p1 p2
        refine ⟨p, (hW p).2 ⟨p1, by show 0 < (nd0 p).ref; rw [href]; exact p2⟩, ?_⟩
        rw [hlift.eq p p1 pl, p3, a2]
      have hne : extRoots k.size nd0 ≠ [] := fun e => by
        obtain ⟨r, hr, _⟩ := key v hv'
        rw [e] at hr
        simp at hr
      exact r6 hne v w hv' hw' (.inr (key v hv')) (.inr (key w hw'))

end Init

end Verif.Bdd
