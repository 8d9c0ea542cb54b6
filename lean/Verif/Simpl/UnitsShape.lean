import Verif.Simpl.Units
import Verif.NormalForm.Tseitin
/-! The result of unit propagation is a CNF over the variables of the given CNF. -/
namespace Verif.Simpl
open Verif Verif.Tree
variable {β : Type} [DecidableEq β] [Inhabited β]

theorem addClause_nVars {Φ : (Nat → Bool) → Prop} {s s' : Sat.S} {fuel : Nat} {ps : List Nat} {b : Bool} (h : Sat.RS Φ s) (hr : ∀ l ∈ ps, l / 2 < s.nVars)
    (he : Sat.addClause fuel s ps = some (s', b)) : s'.nVars = s.nVars := by
  unfold Sat.addClause at he
  by_cases hok : s.ok = false
  · rw [if_pos hok] at he
    cases he; rfl
  rw [if_neg hok] at he
  have hok : s.ok = true := by simpa using hok
  obtain ⟨r1, r2, r3, r4⟩ := h.run hok
  have hperm : (ps.insertionSort (· ≤ ·)).Perm ps := List.perm_insertionSort _ _
  have hal := Sat.addLoop_spec (s := s) (ps := ps) (ps.insertionSort (· ≤ ·)) none [] (fun q hq => hperm.mem_iff.1 hq) (by simp) (List.pairwise_insertionSort _ _)
    (by simp) (by simp) (by simp) (Or.inl ⟨rfl, rfl⟩)
  cases hl : Sat.addLoop s (ps.insertionSort (· ≤ ·)) none [] with
  | none => rw [hl] at he; cases he; rfl
  | some out =>
    rw [hl] at he hal
    obtain ⟨_, hout, _, _⟩ := hal
    match out, he with
    | [], he => cases he; rfl
    | [l], he =>
      dsimp only at he
      obtain ⟨hlp, hlv⟩ := hout l (by simp)
      have hpe : Sat.PI (fun u => Φ u ∧ Sat.lv u l = true) Sat.TT (Sat.enqueue s l none) (fun _ _ => False) := by
        refine (r1.weaken fun u hu => hu.1).enqueue (Or.inl hlv) (hr l hlp) (fun e => ?_) (fun _ u hu => hu.2) trivial (fun _ e => by cases e)
        rw [h.dl0] at e; omega
      cases hp : Sat.propagate fuel (Sat.enqueue s l none) with
      | none => rw [hp] at he; cases he
      | some x =>
        obtain ⟨s1, r⟩ := x
        rw [hp] at he
        cases he
        exact (Sat.propagate_spec fuel _ s1 r hpe hp).1.nVars
    | a :: b :: rest, he =>
      cases he
      unfold Sat.attach
      split <;> rfl

def isNew : Sat.Op → Bool
  | .newVar => true
  | _ => false

theorem run_nVars {fuel : Nat} : ∀ {ops : List Sat.Op} {w w' : Sat.W} {a : Sat.A}, Sat.Inv false w a →
    (∀ o ∈ ops, o = .newVar ∨ ∃ c, o = .add c) → w.run fuel ops = some w' → w'.s.nVars = w.s.nVars + ops.countP isNew
  | [], w, w', a, _, _, he => by cases he; simp
  | o :: os, w, w', a, h, hc, he => by
    unfold Sat.W.run at he
    cases hs : w.step fuel o with
    | none => rw [hs] at he; cases he
    | some x =>
      obtain ⟨w1, r⟩ := x
      rw [hs] at he
      have hcalm : o.Calm false := by
        rcases hc o List.mem_cons_self with rfl | ⟨c, rfl⟩ <;> trivial
      have ih := run_nVars (ops := os) (Sat.step_spec h hcalm hs).1 (fun o' ho => hc o' (List.mem_cons_of_mem _ ho)) he
      rcases hc o List.mem_cons_self with rfl | ⟨c, rfl⟩
      · cases hs
        rw [ih, List.countP_cons_of_pos rfl]
        show w.s.nVars + 1 + _ = _
        omega
      · have h1 : w1.s.nVars = w.s.nVars := by
          simp only [Sat.W.step] at hs
          split at hs
          · rename_i hr
            simp only [Option.map_eq_some_iff] at hs
            obtain ⟨x, hx, hs⟩ := hs
            cases hs
            exact addClause_nVars h.rs hr hx
          · cases hs
        rw [ih, h1, List.countP_cons_of_neg (by simp [isNew])]

theorem unitOps_ops : ∀ (cs : List (List (Lit β))) (ns : List β), (∀ o ∈ (unitOps ns cs).1, o = .newVar ∨ ∃ c, o = .add c) ∧
    ns.length + (unitOps ns cs).1.countP isNew = (unitOps ns cs).2.length
  | [], ns => ⟨by simp [unitOps], by simp [unitOps]⟩
  | c :: cs, ns => by
    obtain ⟨h1, h2⟩ := unitOps_ops cs (vec ns c).2
    have hp := (vec_spec (fun _ => true) c ns).1.length_le
    constructor
    · intro o ho
      simp only [unitOps, List.mem_append, List.mem_cons, List.mem_replicate] at ho
      rcases ho with ⟨_, rfl⟩ | rfl | ho
      · exact .inl rfl
      · exact .inr ⟨_, rfl⟩
      · exact h1 o ho
    · simp only [unitOps, List.countP_append, List.countP_replicate]
      rw [List.countP_cons_of_neg (by simp [isNew]), ← h2, if_pos (show isNew .newVar = true from rfl)]
      omega

theorem vec_names : ∀ (ls : List (Lit β)) (ns : List β), ∀ x ∈ (vec ns ls).2, x ∈ ns ∨ ∃ l ∈ ls, x = l.var
  | [], ns, x, hx => .inl hx
  | l :: ls, ns, x, hx => by
    unfold vec at hx
    split at hx
    · rcases vec_names ls ns x hx with h | ⟨l', h, e⟩
      · exact .inl h
      · exact .inr ⟨l', List.mem_cons_of_mem _ h, e⟩
    · rcases vec_names ls _ x hx with h | ⟨l', h, e⟩
      · rcases List.mem_append.1 h with h | h
        · exact .inl h
        · exact .inr ⟨l, List.mem_cons_self, List.mem_singleton.1 h⟩
      · exact .inr ⟨l', List.mem_cons_of_mem _ h, e⟩

theorem unitOps_names : ∀ (cs : List (List (Lit β))) (ns : List β), ∀ x ∈ (unitOps ns cs).2, x ∈ ns ∨ ∃ c ∈ cs, ∃ l ∈ c, x = l.var
  | [], ns, x, hx => .inl hx
  | c :: cs, ns, x, hx => by
    rcases unitOps_names cs _ x hx with h | ⟨c', h, h2⟩
    · rcases vec_names c ns x h with h | h
      · exact .inl h
      · exact .inr ⟨c, List.mem_cons_self, h⟩
    · exact .inr ⟨c', List.mem_cons_of_mem _ h, h2⟩

theorem clauseLits_vars (g : Fm β) : ∀ l ∈ clauseLits g, l.var ∈ g.vars := by
  intro l hl
  unfold clauseLits at hl
  split at hl
  · rw [List.mem_singleton.1 hl]; simp
  · rename_i fs
    obtain ⟨f, hf, e⟩ := List.mem_filterMap.1 hl
    rw [Fm.vars_or, List.mem_flatMap]
    refine ⟨f, hf, ?_⟩
    split at e
    · cases e; simp
    · cases e
  · cases hl

theorem unitClauses_vars {srt : List (Lit β) → List (Lit β)} (hsrt : ∀ ls l, l ∈ srt ls ↔ l ∈ ls) (F : Fm β) :
    ∀ c ∈ unitClauses srt F, ∀ l ∈ c, l.var ∈ F.vars := by
  intro c hc l hl
  unfold unitClauses at hc
  split at hc
  · cases hc
  · obtain ⟨f, hf, rfl⟩ := List.mem_map.1 hc
    rw [Fm.vars_and, List.mem_flatMap]
    exact ⟨f, hf, clauseLits_vars f l ((hsrt _ _).1 hl)⟩
  · rw [List.mem_singleton.1 hc] at hl
    exact clauseLits_vars _ l ((hsrt _ _).1 hl)

theorem residue_mem {s : Sat.S} : ∀ (ls rs : List Nat), residue s ls = some rs → ∀ l ∈ rs, l ∈ ls
  | [], rs, h, l, hl => by cases h; exact hl
  | x :: ls, rs, h, l, hl => by
    unfold residue at h
    split at h
    · cases h
    · simp only [Option.map_eq_some_iff] at h
      obtain ⟨rs', h, rfl⟩ := h
      rcases List.mem_cons.1 hl with hl | hl
      · rw [hl]; exact List.mem_cons_self
      · exact List.mem_cons_of_mem _ (residue_mem ls rs' h l hl)
    · exact List.mem_cons_of_mem _ (residue_mem ls rs h l hl)

/-- C36: the result of unit propagation is a CNF, and its variables are variables of the given formula -/
theorem C36_units_shape {cons : Bool} {srt : List (Lit β) → List (Lit β)} (hsrt : ∀ ls l, l ∈ srt ls ↔ l ∈ ls) {fuel : Nat} {F g : Fm β}
    (h : propagateUnits cons srt fuel F = some g) : Spec.isCNF g = true ∧ ∀ x ∈ g.vars, x ∈ F.vars := by
  unfold propagateUnits at h
  split at h
  · cases h
  rename_i w hw
  obtain ⟨_, h2, _⟩ := unitOps_spec (fun _ => true) (unitClauses srt F) [] {}
  have hi := Sat.run_spec Sat.inv_init h2 hw
  obtain ⟨o1, o2⟩ := unitOps_ops (unitClauses srt F) []
  have hnv := run_nVars Sat.inv_init o1 hw
  have hn0 : ({} : Sat.W).s.nVars = 0 := rfl
  rw [hn0] at hnv
  rw [List.length_nil] at o2
  have hnm : ∀ x ∈ (unitOps [] (unitClauses srt F)).2, x ∈ F.vars := by
    intro x hx
    rcases unitOps_names _ _ x hx with h | ⟨c, hc, l, hl, rfl⟩
    · cases h
    · exact unitClauses_vars hsrt F c hc l hl
  generalize (unitOps [] (unitClauses srt F)).2 = ns at h o2 hnm
  have hv : ∀ l, l / 2 < w.s.nVars → (unitLit ns l).var ∈ F.vars := by
    intro l hl
    have hl' : l / 2 < ns.length := by omega
    apply hnm
    show ns.getD (l / 2) default ∈ ns
    rw [List.getD_eq_getElem?_getD, List.getElem?_eq_getElem hl']
    exact List.getElem_mem hl'
  unfold propagateFormula at h
  split at h
  · cases h; exact ⟨rfl, by simp⟩
  rename_i hok
  have hok : w.s.ok = true := by simpa using hok
  have hs := hi.rs
  obtain ⟨h1, _, _, _⟩ := hs.run hok
  split at h
  · cases h
  · cases h; exact ⟨rfl, by simp⟩
  · rename_i s' e
    cases h
    obtain ⟨fr, hp, hq⟩ := Sat.propagate_spec fuel w.s s' none h1 e
    have hcl : ∀ c ∈ s'.clauses, Spec.isCNF (clauseFm cons ns s' (s'.cls c).lits) = true ∧
        ∀ x ∈ (clauseFm cons ns s' (s'.cls c).lits).vars, x ∈ F.vars := by
      intro c hc
      unfold clauseFm
      split
      · exact ⟨rfl, by simp⟩
      · rename_i rs hrs
        refine ⟨NF.isCNF_tOr fun f hf => ?_, fun x hx => ?_⟩
        · obtain ⟨l, _, rfl⟩ := List.mem_map.1 hf; rfl
        · obtain ⟨f, hf, hx⟩ := vars_tOr _ _ x hx
          obtain ⟨l, hl, rfl⟩ := List.mem_map.1 hf
          rw [Fm.vars_lit, List.mem_singleton] at hx
          rw [hx]
          apply hv
          rw [← fr.nVars]
          exact hp.d.range c (List.mem_append_left _ hc) l (residue_mem _ _ hrs l hl)
    refine ⟨NF.isCNF_tAnd fun f hf => ?_, fun x hx => ?_⟩
    · rcases List.mem_append.1 hf with hf | hf
      · obtain ⟨c, hc, rfl⟩ := List.mem_map.1 hf
        exact (hcl c hc).1
      · obtain ⟨l, _, rfl⟩ := List.mem_map.1 hf; rfl
    · obtain ⟨f, hf, hx⟩ := vars_tAnd _ _ x hx
      rcases List.mem_append.1 hf with hf | hf
      · obtain ⟨c, hc, rfl⟩ := List.mem_map.1 hf
        exact (hcl c hc).2 x hx
      · obtain ⟨l, hl, rfl⟩ := List.mem_map.1 hf
        rw [Fm.vars_lit, List.mem_singleton] at hx
        rw [hx]
        apply hv
        rw [← fr.nVars]
        exact hp.t.trange l (List.mem_reverse.1 hl)

end Verif.Simpl
