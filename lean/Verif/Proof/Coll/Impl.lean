import Verif.Proof.Coll.And
/-! Both `bdd_and_impl` compute the conjunction; the node limit. -/
namespace LBDD

theorem insAt_ok {c : Coll} {i : Nat} {e : Instr} (h : c.ins[i]? = some e) : insAt i c = .ok e c := by
  simp [insAt, h]

theorem InsAll.mem {ins : List Instr} : ∀ {key : List Nat} {es : List Instr}, InsAll ins key es → ∀ e ∈ es, ∃ k ∈ key, ins[k]? = some e
  | [], [], _, e, he => by simp at he
  | k :: ks, e :: es, h, e', he => by
    rcases List.mem_cons.1 he with rfl | he
    · exact ⟨k, by simp, h.1⟩
    · obtain ⟨j, h1, h2⟩ := InsAll.mem h.2 e' he
      exact ⟨j, by simp [h1], h2⟩
  | [], _ :: _, h, _, _ => h.elim
  | _ :: _, [], h, _, _ => h.elim

theorem insAll_ok {c : Coll} : ∀ {key : List Nat}, (∀ k ∈ key, InWf c.ins k) → ∃ es, insAll key c = .ok es c ∧ InsAll c.ins key es
  | [], _ => ⟨[], rfl, trivial⟩
  | k :: ks, h => by
    obtain ⟨e, he, _⟩ := (h k (by simp)).get
    obtain ⟨es, h1, h2⟩ := insAll_ok (key := ks) (fun j hj => h j (by simp [hj]))
    refine ⟨e :: es, ?_, he, h2⟩
    unfold insAll
    rw [M.bind_ok (insAt_ok he), M.bind_ok h1]; rfl

/-- The operands are all the true sink. -/
theorem conj_allTop {ins : List Instr} : ∀ {key : List Nat} {es : List Instr} {ts : List Tree}, InsAll ins key es → CReprs ins key ts →
    es.all (fun e => e.isTop) = true → ∀ x, conj ts x = true
  | [], [], [], _, _, _, _ => rfl
  | k :: ks, e :: es, t :: ts, h, h', ha, x => by
    simp only [List.all_cons, Bool.and_eq_true] at ha
    have : t = .top := by
      have h1 : e.index = cTop := by simpa [Instr.isTop] using ha.1
      exact h'.1.unique (.top h.1 h1)
    subst this
    have := conj_allTop h.2 h'.2 ha.2 x
    simp only [conj, List.all_cons, Tree.eval, Bool.true_and] at *
    exact this
  | [], [], _ :: _, _, h, _, _ => h.elim
  | [], _ :: _, _, h, _, _, _ => h.elim
  | _ :: _, [], _, h, _, _, _ => h.elim
  | _ :: _, _ :: _, [], _, h, _, _ => h.elim

/-- An operand is the false sink. -/
theorem conj_anyBot {ins : List Instr} : ∀ {key : List Nat} {es : List Instr} {ts : List Tree}, InsAll ins key es → CReprs ins key ts →
    es.any (fun e => e.isBot) = true → ∀ x, conj ts x = false
  | [], [], [], _, _, h, _ => by simp at h
  | k :: ks, e :: es, t :: ts, h, h', ha, x => by
    simp only [List.any_cons, Bool.or_eq_true] at ha
    rcases ha with ha | ha
    · have : t = .bot := by
        have h1 : e.index = cBot := by simpa [Instr.isBot] using ha
        exact h'.1.unique (.bot h.1 h1)
      subst this
      simp [conj, Tree.eval]
    · have := conj_anyBot h.2 h'.2 ha x
      simp only [conj, List.all_cons] at *
      rw [this, Bool.and_false]
  | [], [], _ :: _, _, h, _, _ => h.elim
  | [], _ :: _, _, h, _, _, _ => h.elim
  | _ :: _, [], _, h, _, _, _ => h.elim
  | _ :: _, _ :: _, [], _, h, _, _ => h.elim

theorem foldl_min_le : ∀ (l : List Nat) (a : Nat), l.foldl min a ≤ a ∧ ∀ x ∈ l, l.foldl min a ≤ x
  | [], a => by simp
  | y :: l, a => by
    obtain ⟨h1, h2⟩ := foldl_min_le l (min a y)
    simp only [List.foldl_cons]
    refine ⟨by omega, ?_⟩
    intro x hx
    rcases List.mem_cons.1 hx with rfl | hx
    · omega
    · exact h2 x hx

theorem foldl_min_mem : ∀ (l : List Nat) (a : Nat), l.foldl min a = a ∨ l.foldl min a ∈ l
  | [], a => by simp
  | y :: l, a => by
    simp only [List.foldl_cons]
    rcases foldl_min_mem l (min a y) with h | h
    · rcases Nat.le_total a y with h1 | h1
      · rw [Nat.min_eq_left h1] at h ⊢; exact Or.inl h
      · rw [Nat.min_eq_right h1] at h ⊢; rw [h]; exact Or.inr (by simp)
    · exact Or.inr (by simp [h])

/-- Dichotomy of the instructions at operand positions. -/
theorem InWf.term_cases {ins : List Instr} {k : Nat} {e : Instr} (h : InWf ins k) (he : ins[k]? = some e) :
    (e.isTerm = false ∧ e.isTop = false ∧ e.isBot = false ∧ e.index < cBot) ∨ (e.isTerm = true ∧ e.isTop = false ∧ e.isBot = true ∧ e.index = cBot) ∨
    (e.isTerm = true ∧ e.isTop = true ∧ e.isBot = false ∧ e.index = cTop) := by
  obtain ⟨e', he', _, hc⟩ := h.get
  rw [he] at he'; cases he'
  rcases hc with ⟨h1, h2, h3, _⟩ | ⟨h1, h2 | h2⟩
  · exact Or.inl ⟨h2, by simp [Instr.isTop, h1.2], by simp [Instr.isBot, h1.1], h3⟩
  · exact Or.inr (Or.inl ⟨h1, by simp [Instr.isTop, h2]; decide, by simp [Instr.isBot, h2], h2⟩)
  · exact Or.inr (Or.inr ⟨h1, by simp [Instr.isTop, h2], by simp [Instr.isBot, h2]; decide, h2⟩)

/-- The recursion from `key` has at most `n` nested calls: every pair of cofactors by the smallest variable has at most one less. -/
inductive FitC (ins : List Instr) : Nat → List Nat → Prop
  | mk {n : Nat} {key : List Nat} : (∀ es v b, InsAll ins key es → v < cBot → (∀ e ∈ es, v ≤ e.index) → (∃ e ∈ es, e.index = v) →
      FitC ins n (cofC b v key es)) → FitC ins (n + 1) key

theorem FitC.of_msr {ins : List Instr} : ∀ (n : Nat) (key : List Nat), (∀ k ∈ key, InWf ins k) → msr ins key < n → FitC ins n key
  | 0, _, _, h => by omega
  | n + 1, _, hk, h => .mk fun _ _ b hes hv _ hmem =>
    have hw := cofC_wf hv b hes hk
    .of_msr n _ hw.1 (by have := hw.2.2 hmem; omega)

theorem andImplN_fit {limit : Nat} : ∀ (n : Nat) (key : List Nat) (c : Coll) (ts : List Tree), AInv c → (∀ k ∈ key, InWf c.ins k) →
    CReprs c.ins key ts → FitC c.ins n key → AndPost c limit ts (andImplN limit n key c)
  | 0, _, _, _, _, _, _, h => nomatch h
  | n + 1, key, c, ts, hi, hk, hts, hn => by
    unfold andImplN
    rw [M.get_bind_apply]
    cases hg : c.gen.lookup key with
    | some m => exact AndPost.ret hi (hi.gen key m hg ts hts)
    | none =>
      obtain ⟨es, h1, hes⟩ := insAll_ok hk
      show AndPost c limit ts ((insAll key >>= _) c)
      rw [M.bind_ok h1]
      by_cases ht : es.all (fun e => e.isTop) = true
      · rw [if_pos ht]; exact AndPost.ret hi (AndT.top hi.sok (conj_allTop hes hts ht))
      · rw [if_neg ht]
        by_cases hb : es.any (fun e => e.isBot) = true
        · rw [if_pos hb]; exact AndPost.ret hi (AndT.bot hi.sok (conj_anyBot hes hts hb))
        · rw [if_neg hb]
          have hex : ∃ e ∈ es, e.index < cBot := by
            simp only [List.all_eq_true, Classical.not_forall] at ht
            obtain ⟨e, he, h2⟩ := ht
            obtain ⟨k, hk1, hk2⟩ := hes.mem e he
            rcases (hk k hk1).term_cases hk2 with h | h | h
            · exact ⟨e, he, h.2.2.2⟩
            · exact absurd (List.any_eq_true.2 ⟨e, he, h.2.2.1⟩) hb
            · exact absurd h.2.1 h2
          obtain ⟨e0, he0, hlt⟩ := hex
          have hmin := foldl_min_le (es.map (·.index)) cTop
          have hle : ∀ e ∈ es, (es.map (·.index)).foldl min cTop ≤ e.index := fun e he => hmin.2 _ (List.mem_map.2 ⟨e, he, rfl⟩)
          have hv : (es.map (·.index)).foldl min cTop < cBot := Nat.lt_of_le_of_lt (hle e0 he0) hlt
          have hmem : ∃ e ∈ es, e.index = (es.map (·.index)).foldl min cTop := by
            rcases foldl_min_mem (es.map (·.index)) cTop with h | h
            · rw [h] at hv; exact absurd hv (by decide)
            · obtain ⟨e, he, h⟩ := List.mem_map.1 h
              exact ⟨e, he, h⟩
          refine andTail_ok hi hv hes hts hle hmem ?_
          intro b c' hi' hf
          have hw := cofC_wf hv b hes hk
          exact andImplN_fit n _ c' _ hi' (by rw [hf.ins]; exact hw.1) (by rw [hf.ins]; exact hts.cof hv b hes)
            (by rw [hf.ins]; cases hn with | mk h => exact h es _ b hes hv hle hmem)

theorem andImpl2_fit {limit : Nat} : ∀ (n : Nat) (f g : Nat) (c : Coll) (ts : List Tree), AInv c → (∀ k ∈ [f, g], InWf c.ins k) →
    CReprs c.ins [f, g] ts → FitC c.ins n [f, g] → AndPost c limit ts (andImpl2 limit n [f, g] c)
  | 0, _, _, _, _, _, _, _, h => nomatch h
  | n + 1, f, g, c, ts, hi, hk, hts, hn => by
    unfold andImpl2
    rw [M.get_bind_apply]
    cases hg : c.gen.lookup [f, g] with
    | some m => exact AndPost.ret hi (hi.gen _ m hg ts hts)
    | none =>
      obtain ⟨ef, hef, _⟩ := (hk f (by simp)).get
      obtain ⟨eg, heg, _⟩ := (hk g (by simp)).get
      have hes : InsAll c.ins [f, g] [ef, eg] := ⟨hef, heg, trivial⟩
      show AndPost c limit ts ((insAt f >>= _) c)
      rw [M.bind_ok (insAt_ok hef), M.bind_ok (insAt_ok heg)]
      have tail : (ef.index < cBot ∨ eg.index < cBot) →
          AndPost c limit ts (andTail limit (andImpl2 limit n) [f, g] [ef, eg] (min ef.index eg.index) c) := by
        intro h
        have hv : min ef.index eg.index < cBot := by omega
        have hmem : ∃ e ∈ [ef, eg], e.index = min ef.index eg.index := by
          rcases Nat.le_total ef.index eg.index with h1 | h1
          · exact ⟨ef, by simp, by omega⟩
          · exact ⟨eg, by simp, by omega⟩
        have hle : ∀ e ∈ [ef, eg], min ef.index eg.index ≤ e.index := by
          intro e he
          simp only [List.mem_cons, List.not_mem_nil, or_false] at he
          rcases he with rfl | rfl <;> omega
        refine andTail_ok hi hv hes hts hle hmem ?_
        · intro b c' hi' hf
          have hw := cofC_wf hv b hes hk
          exact andImpl2_fit n _ _ c' _ hi' (by rw [hf.ins]; exact hw.1) (by rw [hf.ins]; exact hts.cof hv b hes)
            (by rw [hf.ins]; cases hn with | mk h => exact h [ef, eg] _ b hes hv hle hmem)
      have top : ef.isTop = true → eg.isTop = true → AndPost c limit ts (.ok (some 1) c) := fun h1 h2 =>
        AndPost.ret hi (AndT.top hi.sok (conj_allTop hes hts (by simp [h1, h2])))
      have bot : (ef.isBot = true ∨ eg.isBot = true) → AndPost c limit ts (.ok (some 0) c) := fun h =>
        AndPost.ret hi (AndT.bot hi.sok (conj_anyBot hes hts (by simp; exact h)))
      rcases (hk f (by simp)).term_cases hef with ⟨a1, a2, a3, a4⟩ | ⟨a1, a2, a3, a4⟩ | ⟨a1, a2, a3, a4⟩ <;>
        rcases (hk g (by simp)).term_cases heg with ⟨b1, b2, b3, b4⟩ | ⟨b1, b2, b3, b4⟩ | ⟨b1, b2, b3, b4⟩ <;>
        simp only [a1, a2, a3, b1, b2, b3, Bool.and_self, Bool.and_true, Bool.true_and, Bool.and_false, Bool.false_and, Bool.not_true, Bool.not_false, if_true,
          if_false, Bool.false_eq_true]
      · exact tail (Or.inl a4)
      · exact tail (Or.inl a4)
      · exact tail (Or.inl a4)
      · exact bot (Or.inl a3)
      · exact bot (Or.inl a3)
      · exact bot (Or.inl a3)
      · exact tail (Or.inr b4)
      · exact bot (Or.inr b3)
      · exact top a2 b2

theorem andImplN_ok {limit : Nat} (n : Nat) (key : List Nat) (c : Coll) (ts : List Tree) (hi : AInv c) (hk : ∀ k ∈ key, InWf c.ins k)
    (ht : CReprs c.ins key ts) (hn : msr c.ins key < n) : AndPost c limit ts (andImplN limit n key c) := andImplN_fit n key c ts hi hk ht (.of_msr n key hk hn)

theorem andImpl2_ok {limit : Nat} (n : Nat) (f g : Nat) (c : Coll) (ts : List Tree) (hi : AInv c) (hk : ∀ k ∈ [f, g], InWf c.ins k)
    (ht : CReprs c.ins [f, g] ts) (hn : msr c.ins [f, g] < n) : AndPost c limit ts (andImpl2 limit n [f, g] c) :=
  andImpl2_fit n f g c ts hi hk ht (.of_msr n _ hk hn)

end LBDD
