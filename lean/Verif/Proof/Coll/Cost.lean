import Verif.Proof.CostTree
import Verif.Proof.Coll.Finish
/-! Calls of `bdd_and_impl`. -/
namespace LBDD

theorem andTailK_counts {limit : Nat} {rk : List Nat → MK Coll (Option Nat)} {r : List Nat → M Coll (Option Nat)} (h : ∀ k, Counts (rk k) (r k))
    (key : List Nat) (es : List Instr) (v : Nat) : Counts (andTailK limit rk key es v) (andTail limit r key es v) := by
  unfold andTailK andTail
  refine .bind (h _) fun o => ?_
  cases o with
  | none => exact .pure _
  | some lo =>
    refine .bind (h _) fun o => ?_
    cases o with
    | none => exact .pure _
    | some hi =>
      refine .ite (.pure _) (.bind (.of _) fun c => ?_)
      show Counts (match c.red.lookup ⟨lo, hi, v⟩ with | some m => _ | none => _) (match c.red.lookup ⟨lo, hi, v⟩ with | some m => _ | none => _)
      cases c.red.lookup ⟨lo, hi, v⟩ with
      | some m => exact .pure _
      | none => exact .bind (.of _) fun _ => .ite (.pure _) (.bind (.of _) fun _ => .pure _)

theorem andImpl2K_counts {limit : Nat} : ∀ n key, Counts (andImpl2K limit n key) (andImpl2 limit n key)
  | 0, _ => .of _
  | n + 1, [] => .of _
  | n + 1, [_] => .of _
  | n + 1, _ :: _ :: _ :: _ => .of _
  | n + 1, [f, g] => by
    unfold andImpl2K andImpl2
    refine .tick (.bind (.of _) fun c => ?_)
    cases c.gen.lookup [f, g] with
    | some m => exact .pure _
    | none =>
      have ht : ∀ es v, Counts (andTailK limit (andImpl2K limit n) [f, g] es v) (andTail limit (andImpl2 limit n) [f, g] es v) := fun es v =>
        andTailK_counts (andImpl2K_counts n) [f, g] es v
      exact .bind (.of _) fun _ => .bind (.of _) fun _ => .ite (.ite (.pure _) (.pure _)) (.ite (.ite (.pure _) (.ite (.ite (.pure _) (ht _ _)) (ht _ _))) (ht _ _))

theorem andImplNK_counts {limit : Nat} : ∀ n key, Counts (andImplNK limit n key) (andImplN limit n key)
  | 0, _ => .of _
  | n + 1, key => by
    unfold andImplNK andImplN
    refine .tick (.bind (.of _) fun c => ?_)
    cases c.gen.lookup key with
    | some m => exact .pure _
    | none => exact .bind (.of _) fun _ => .ite (.pure _) (.ite (.pure _) (andTailK_counts (andImplNK_counts n) _ _ _))

theorem bddAndK_counts (cfg : Cfg) (i j limit : Nat) : Counts (bddAndK cfg i j limit) (bddAnd cfg i j limit) :=
  .bind (.of _) fun _ => .bind (.of _) fun _ => .bind (.of _) fun _ => .bind (andImpl2K_counts _ _) fun _ => .of _

theorem bddAndNK_counts (cfg : Cfg) (l : List Nat) (limit : Nat) : Counts (bddAndNK cfg l limit) (bddAndN cfg l limit) :=
  .bind (.of _) fun _ => .bind (.of _) fun _ => .bind (.of _) fun _ => .bind (andImplNK_counts _ _) fun _ => .of _

/-! ## Unsatisfiable conjunctions -/

/-- The second tree is `false`, or the trees are ordered and have no common solution. -/
def Dead (tf tg : Tree) : Prop := tg = .bot ∨ (tf.Ordered ∧ tg.Ordered ∧ ∀ x, conj [tf, tg] x = false)

theorem Dead.cof {tf tg : Tree} {v : Nat} (h : Dead tf tg) (hf : tf.RootGe v) (hg : tg.RootGe v) (b : Bool) : Dead (tf.cofv b v) (tg.cofv b v) := by
  rcases h with rfl | ⟨h1, h2, h3⟩
  · exact Or.inl rfl
  · refine Or.inr ⟨Tree.ordered_cofv h1, Tree.ordered_cofv h2, fun x => ?_⟩
    have nf : ¬ (tf.cofv b v).Mem v := fun h => Nat.lt_irrefl _ (Tree.cofv_gt h1 hf v h)
    have ng : ¬ (tg.cofv b v).Mem v := fun h => Nat.lt_irrefl _ (Tree.cofv_gt h2 hg v h)
    have := conj_cofv v [tf, tg] (Tree.set x v b)
    rw [h3, Tree.set_same] at this
    simp only [conj, List.map_cons, List.map_nil, List.all_cons, List.all_nil, Bool.and_true] at this ⊢
    rwa [Tree.eval_set_of_not_mem nf, Tree.eval_set_of_not_mem ng] at this

theorem Dead.not_top : ¬ Dead .top .top := by
  rintro (h | ⟨_, _, h⟩)
  · cases h
  · have := h (fun _ => false)
    simp [conj, Tree.eval] at this

/-- A dead pair: the result is `false`, nothing is stored, and the calls form the unfolded pair. -/
theorem andImpl2_dead {limit : Nat} {c : Coll} (hg : c.gen = []) : ∀ (n f g : Nat) (tf tg : Tree), InWf c.ins f → InWf c.ins g → CRepr c.ins f tf →
    CRepr c.ins g tg → Dead tf tg → msr c.ins [f, g] < n →
    andImpl2 limit n [f, g] c = .ok (some 0) c ∧ PairUnfolded c.ins f g ((andImpl2K limit n [f, g]).calls c)
  | 0, _, _, _, _, _, _, _, _, _, h => by omega
  | n + 1, f, g, tf, tg, wf, wg, rf, rg, hd, hn => by
    unfold andImpl2 andImpl2K
    rw [M.get_bind_apply, calls_tick, calls_of_bind (m := M.get) (s' := c) (a := c) rfl]
    have hl : c.gen.lookup [f, g] = none := by rw [hg]; rfl
    simp only [hl]
    obtain ⟨ef, hef, _⟩ := wf.get
    obtain ⟨eg, heg, _⟩ := wg.get
    rw [M.bind_ok (insAt_ok hef), M.bind_ok (insAt_ok heg), calls_of_bind (insAt_ok hef), calls_of_bind (insAt_ok heg)]
    have hes : InsAll c.ins [f, g] [ef, eg] := ⟨hef, heg, trivial⟩
    have hts : CReprs c.ins [f, g] [tf, tg] := ⟨rf, rg, trivial⟩
    have hk : ∀ k ∈ [f, g], InWf c.ins k := by intro k hk; simp at hk; rcases hk with rfl | rfl <;> assumption
    have tail : (ef.index < cBot ∨ eg.index < cBot) → ef.index ≠ cBot → (ef.Inner ∨ eg.Inner) →
        andTail limit (andImpl2 limit n) [f, g] [ef, eg] (min ef.index eg.index) c = .ok (some 0) c ∧
        PairUnfolded c.ins f g (1 + (andTailK limit (andImpl2K limit n) [f, g] [ef, eg] (min ef.index eg.index)).calls c) := by
      intro h hnb hin
      have hv : min ef.index eg.index < cBot := by omega
      have hmem : ∃ e ∈ [ef, eg], e.index = min ef.index eg.index := by
        rcases Nat.le_total ef.index eg.index with h1 | h1
        · exact ⟨ef, by simp, by omega⟩
        · exact ⟨eg, by simp, by omega⟩
      have hle : ∀ e ∈ [ef, eg], min ef.index eg.index ≤ e.index := by
        intro e he
        simp only [List.mem_cons, List.not_mem_nil, or_false] at he
        rcases he with rfl | rfl <;> omega
      have hro := hes.rootGe hts hle
      have step : ∀ b, andImpl2 limit n (cofC b (min ef.index eg.index) [f, g] [ef, eg]) c = .ok (some 0) c ∧
          PairUnfolded c.ins (if ef.index = min ef.index eg.index then (if b then ef.hi else ef.lo) else f)
            (if eg.index = min ef.index eg.index then (if b then eg.hi else eg.lo) else g)
            ((andImpl2K limit n (cofC b (min ef.index eg.index) [f, g] [ef, eg])).calls c) := by
        intro b
        have hw := cofC_wf hv b hes hk
        have hr := hts.cof hv b hes
        have hm := hw.2.2 hmem
        exact andImpl2_dead hg n _ _ _ _ (hw.1 _ (by simp [cofC])) (hw.1 _ (by simp [cofC])) hr.1 hr.2.1
          (hd.cof (hro _ (by simp)) (hro _ (by simp)) b) (by
            have : msr c.ins (cofC b (min ef.index eg.index) [f, g] [ef, eg]) < n := by omega
            exact this)
      obtain ⟨a1, a2⟩ := step false
      obtain ⟨b1, b2⟩ := step true
      unfold andTail andTailK
      rw [M.bind_ok a1, calls_bind ((andImpl2K_counts _ _).run a1)]
      simp only
      rw [M.bind_ok b1, calls_bind ((andImpl2K_counts _ _).run b1)]
      simp only
      rw [if_pos trivial, if_pos trivial, calls_pure, Nat.add_zero, ← Nat.add_assoc]
      exact ⟨rfl, .split hef heg hnb hin rfl a2 b2⟩
    rcases wf.term_cases hef with ⟨a1, a2, a3, a4⟩ | ⟨a1, a2, a3, a4⟩ | ⟨a1, a2, a3, a4⟩ <;>
      rcases wg.term_cases heg with ⟨b1, b2, b3, b4⟩ | ⟨b1, b2, b3, b4⟩ | ⟨b1, b2, b3, b4⟩ <;>
      simp only [a1, a2, a3, b1, b2, b3, Bool.and_self, Bool.and_true, Bool.true_and, Bool.and_false, Bool.false_and, Bool.not_true, Bool.not_false, if_true,
        if_false, Bool.false_eq_true]
    · exact tail (Or.inl a4) (by omega) (Or.inl (Instr.inner_of_lt a4))
    · exact tail (Or.inl a4) (by omega) (Or.inl (Instr.inner_of_lt a4))
    · exact tail (Or.inl a4) (by omega) (Or.inl (Instr.inner_of_lt a4))
    · exact ⟨rfl, .bot hef a4⟩
    · exact ⟨rfl, .bot hef a4⟩
    · exact ⟨rfl, .bot hef a4⟩
    · exact tail (Or.inr b4) (by rw [a4]; decide) (Or.inr (Instr.inner_of_lt b4))
    · exact ⟨rfl, .sinks hef heg (fun h => h.2 a4) (fun h => h.1 b4)⟩
    · exfalso
      have h1 := rf.unique (.top hef a4)
      have h2 := rg.unique (.top heg b4)
      rw [h1, h2] at hd
      exact hd.not_top

theorem cofC_zip {b : Bool} {v : Nat} : ∀ {key : List Nat} {es : List Instr},
    cofC b v key es = List.zipWith (fun p (e : Instr) => if e.index = v then (if b then e.hi else e.lo) else p) key es
  | [], [] => rfl
  | [], _ :: _ => rfl
  | _ :: _, [] => rfl
  | _ :: ks, _ :: es => by rw [cofC, cofC_zip, List.zipWith_cons_cons]

theorem InsAll.map_eq {ins : List Instr} : ∀ {key : List Nat} {es : List Instr}, InsAll ins key es → key.map (ins[·]?) = es.map some
  | [], [], _ => rfl
  | _ :: _, _ :: _, h => by rw [List.map_cons, List.map_cons, h.1, h.2.map_eq]

theorem all_congr_mem {α : Type} {f g : α → Bool} : ∀ {l : List α}, (∀ a ∈ l, f a = g a) → l.all f = l.all g
  | [], _ => rfl
  | a :: l, h => by rw [List.all_cons, List.all_cons, h a (by simp), all_congr_mem fun b hb => h b (by simp [hb])]

/-- Operands without a common solution: the result is `false`, nothing is stored, and the calls form the unfolded tuple. -/
theorem andImplN_dead {limit : Nat} {c : Coll} (hg : c.gen = []) : ∀ (n : Nat) (key : List Nat) (ts : List Tree), (∀ k ∈ key, InWf c.ins k) →
    CReprs c.ins key ts → (∀ t ∈ ts, t.Ordered) → (∀ x, conj ts x = false) → msr c.ins key < n →
    andImplN limit n key c = .ok (some 0) c ∧ KeyUnfolded c.ins key ((andImplNK limit n key).calls c)
  | 0, _, _, _, _, _, _, h => by omega
  | n + 1, key, ts, hk, hts, ho, hd, hn => by
    unfold andImplN andImplNK
    rw [M.get_bind_apply, calls_tick, calls_of_bind (m := M.get) (s' := c) (a := c) rfl]
    have hl : c.gen.lookup key = none := by rw [hg]; rfl
    simp only [hl]
    obtain ⟨es, h1, hes⟩ := insAll_ok hk
    rw [M.bind_ok h1, calls_of_bind h1]
    have ht : ¬ es.all (fun e => e.isTop) = true := by
      intro h
      have := conj_allTop hes hts h (fun _ => false)
      rw [hd] at this; cases this
    rw [if_neg ht, if_neg ht]
    by_cases hb : es.any (fun e => e.isBot) = true
    · rw [if_pos hb, if_pos hb, calls_pure]
      refine ⟨rfl, ?_⟩
      obtain ⟨e, he, h2⟩ := List.any_eq_true.1 hb
      obtain ⟨k, hk1, hk2⟩ := hes.mem e he
      rcases (hk k hk1).term_cases hk2 with h | h | h
      · rw [h.2.2.1] at h2; cases h2
      · exact .bot hk1 hk2 h.2.2.2
      · rw [h.2.2.1] at h2; cases h2
    · rw [if_neg hb, if_neg hb]
      have hex : ∃ e ∈ es, e.index < cBot := by
        simp only [List.all_eq_true, Classical.not_forall] at ht
        obtain ⟨e, he, h2⟩ := ht
        obtain ⟨k, hk1, hk2⟩ := hes.mem e he
        rcases (hk k hk1).term_cases hk2 with h | h | h
        · exact ⟨e, he, h.2.2.2⟩
        · exact absurd (List.any_eq_true.2 ⟨e, he, h.2.2.1⟩) hb
        · exact absurd h.2.1 h2
      obtain ⟨e0, he0, hlt⟩ := hex
      have hmin := foldl_min_le (es.map (·.index)) cTop
      have hle : ∀ e ∈ es, (es.map (·.index)).foldl min cTop ≤ e.index := fun e he => hmin.2 _ (List.mem_map.2 ⟨e, he, rfl⟩)
      have hv : (es.map (·.index)).foldl min cTop < cBot := Nat.lt_of_le_of_lt (hle e0 he0) hlt
      have hmem : ∃ e ∈ es, e.index = (es.map (·.index)).foldl min cTop := by
        rcases foldl_min_mem (es.map (·.index)) cTop with h | h
        · rw [h] at hv; exact absurd hv (by decide)
        · obtain ⟨e, he, h⟩ := List.mem_map.1 h
          exact ⟨e, he, h⟩
      generalize (es.map (·.index)).foldl min cTop = v at hle hv hmem
      have hro := hes.rootGe hts hle
      have step : ∀ b, andImplN limit n (cofC b v key es) c = .ok (some 0) c ∧
          KeyUnfolded c.ins (cofC b v key es) ((andImplNK limit n (cofC b v key es)).calls c) := by
        intro b
        have hw := cofC_wf hv b hes hk
        refine andImplN_dead hg n _ _ hw.1 (hts.cof hv b hes) ?_ ?_ (by have := hw.2.2 hmem; omega)
        · intro t h
          obtain ⟨t', h', rfl⟩ := List.mem_map.1 h
          exact Tree.ordered_cofv (ho t' h')
        · intro x
          have := conj_cofv v ts (Tree.set x v b)
          rw [hd, Tree.set_same] at this
          rw [← this]
          unfold conj
          refine all_congr_mem fun t h => ?_
          obtain ⟨t', h', rfl⟩ := List.mem_map.1 h
          exact (Tree.eval_set_of_not_mem (fun h => Nat.lt_irrefl _ (Tree.cofv_gt (ho t' h') (hro t' h') v h)) x b).symm
      obtain ⟨a1, a2⟩ := step false
      obtain ⟨b1, b2⟩ := step true
      rw [cofC_zip] at a2 b2
      unfold andTail andTailK
      rw [M.bind_ok a1, calls_bind ((andImplNK_counts _ _).run a1)]
      simp only
      rw [M.bind_ok b1, calls_bind ((andImplNK_counts _ _).run b1)]
      simp only
      rw [if_pos trivial, if_pos trivial, calls_pure, Nat.add_zero, ← Nat.add_assoc]
      refine ⟨rfl, .split hes.map_eq (fun e he => ⟨?_, hle e he⟩) ?_ (by simpa [cofC_zip] using a2) (by simpa [cofC_zip] using b2)⟩
      · intro h
        obtain ⟨k, hk1, hk2⟩ := hes.mem e he
        rcases (hk k hk1).term_cases hk2 with h' | h' | h'
        · omega
        · exact hb (List.any_eq_true.2 ⟨e, he, h'.2.2.1⟩)
        · rw [h'.2.2.2] at h; exact absurd h (by decide)
      · obtain ⟨e, he, h⟩ := hmem
        exact ⟨e, he, h, Instr.inner_of_lt (by omega)⟩

/-! ## Sizes of unfolded pairs -/

theorem CUnfolded.of_repr {ins : List Instr} {p : Nat} {t : Tree} (h : CRepr ins p t) : CUnfolded ins p (2 * t.size + 1) := by
  induction h with
  | bot h1 h2 => exact .sink h1 (fun h => h.1 h2)
  | top h1 h2 => exact .sink h1 (fun h => h.2 h2)
  | node h1 h2 _ _ ih1 ih2 =>
    rename_i tl th _ _
    have h := CUnfolded.node h1 h2 ih1 ih2
    simp only [Tree.size]
    rwa [show 1 + (2 * tl.size + 1) + (2 * th.size + 1) = 2 * (tl.size + th.size + 1) + 1 by omega] at h

theorem CUnfolded.unique {ins : List Instr} {p k l : Nat} (h : CUnfolded ins p k) (h' : CUnfolded ins p l) : k = l := by
  induction h generalizing l with
  | sink h1 h2 =>
    cases h' with
    | sink _ _ => rfl
    | node h3 h4 _ _ => rw [h1] at h3; cases h3; exact absurd h4 h2
  | node h1 h2 _ _ ih1 ih2 =>
    cases h' with
    | sink h3 h4 => rw [h1] at h3; cases h3; exact absurd h2 h4
    | node h3 _ a b => rw [h1] at h3; cases h3; rw [ih1 a, ih2 b]

/-- A BDD and the false sink: the whole BDD is unfolded. -/
theorem PairUnfolded.with_bot {ins : List Instr} {f g k : Nat} (h : PairUnfolded ins f g k) : ∀ {t : Tree}, InWf ins f → CRepr ins f t →
    CRepr ins g .bot → k = 2 * t.size + 1 := by
  induction h with
  | sinks h1 h2 h3 h4 =>
    intro t _ hf hg
    cases hf with
    | bot _ _ => rfl
    | top _ _ => rfl
    | node g1 g2 _ _ => rw [h1] at g1; cases g1; exact absurd g2 h3
  | bot h1 h2 => intro t _ hf _; rw [hf.unique (.bot h1 h2)]; rfl
  | @split f g k l v a b h1 h2 h3 h4 hv _ _ ih1 ih2 =>
    intro t wf hf hg
    have g2 : b.index = cBot := by
      cases hg with
      | bot g1 g2 => rw [h2] at g1; cases g1; exact g2
    have hin : a.Inner := h4.resolve_right (fun h => h.1 g2)
    obtain ⟨tl, th, rfl, q1, q2⟩ := hf.inv h1 hin
    obtain ⟨e, he, _, hc⟩ := wf.get
    rw [h1] at he; cases he
    have hc : a.index < cBot ∧ InWf ins a.lo ∧ InWf ins a.hi := by
      rcases hc with hc | hc
      · exact ⟨hc.2.2.1, hc.2.2.2.2.2⟩
      · rcases hc.2 with h | h
        · exact absurd h hin.1
        · exact absurd h hin.2
    have e1 : a.index = v := by omega
    have e2 : b.index ≠ v := by omega
    rw [if_pos e1, if_neg e2] at ih1 ih2
    have := ih1 hc.2.1 q1 hg
    have := ih2 hc.2.2 q2 hg
    simp only [Tree.size]; omega

/-- A BDD and its negation: the whole BDD is unfolded. -/
theorem PairUnfolded.with_neg {ins : List Instr} {f g k : Nat} (h : PairUnfolded ins f g k) : ∀ {t : Tree}, CRepr ins f t → CRepr ins g (negTree t) →
    k = 2 * t.size + 1 := by
  induction h with
  | sinks h1 h2 h3 h4 =>
    intro t hf hg
    cases hf with
    | bot _ _ => rfl
    | top _ _ => rfl
    | node g1 g2 _ _ => rw [h1] at g1; cases g1; exact absurd g2 h3
  | bot h1 h2 => intro t hf _; rw [hf.unique (.bot h1 h2)]; rfl
  | @split f g k l v a b h1 h2 h3 h4 hv _ _ ih1 ih2 =>
    intro t hf hg
    cases hf with
    | bot g1 g2 => rw [h1] at g1; cases g1; exact absurd g2 h3
    | top g1 g2 =>
      rw [h1] at g1; cases g1
      have hb : b.Inner := h4.resolve_left (fun h => h.2 g2)
      obtain ⟨_, _, e, _⟩ := hg.inv h2 hb
      cases e
    | @node _ _ tl th g1 g2 q1 q2 =>
      rw [h1] at g1; cases g1
      rw [negTree] at hg
      have hb : b.index = a.index ∧ CRepr ins b.lo (negTree tl) ∧ CRepr ins b.hi (negTree th) := by
        generalize hu : Tree.node a.index (negTree tl) (negTree th) = u at hg
        cases hg with
        | bot _ _ => cases hu
        | top _ _ => cases hu
        | node g3 g4 q3 q4 =>
          rw [h2] at g3; cases g3
          injection hu with e1 e2 e3
          rw [e2, e3]
          exact ⟨e1.symm, q3, q4⟩
      have e1 : a.index = v := by omega
      have e2 : b.index = v := by omega
      rw [if_pos e1, if_pos e2] at ih1 ih2
      have := ih1 q1 hb.2.1
      have := ih2 q2 hb.2.2
      simp only [Tree.size]; omega

/-! ## `bdd_and` -/

theorem calls_bind_of {σ α β : Type} {mk : MK σ α} {m : α → M σ β} {s : σ} : (mk >>= fun a => MK.of (m a)).calls s = mk.calls s := by
  unfold MK.calls
  show (MK.bind mk _ s).2 = _
  unfold MK.bind
  generalize mk s = r
  obtain ⟨o, k⟩ := r
  cases o <;> rfl

/-- The state in which `bdd_and_impl` is called. -/
theorem bddAndK_calls {cfg : Cfg} {c : Coll} (hc : CInv c) {i j f g f1 g1 limit : Nat} (hi : c.Entry i f f1) (hj : c.Entry j g g1)
    (hl : cfg.ndebug = true ∨ 2 < limit) :
    (bddAndK cfg i j limit).calls c = (andImpl2K limit (andFuel c [f, g]) [f, g]).calls (startC c) := by
  have e1 := andStart_run (cfg := cfg) (limit := limit) hc (l := [i, j]) (by simp [hi.lt, hj.lt])
  rw [if_neg (by rcases hl with h | h <;> simp [h])] at e1
  have e2 : dlms [i, j] c = .ok [f, g] c := by
    have d : ∀ {i f f1 : Nat}, c.Entry i f f1 → dlm i c = .ok f c := by
      intro i f f1 h
      unfold dlm
      rw [h.1]
    have e3 : dlms [j] c = .ok [g] c := by unfold dlms; rw [M.bind_ok (d hj)]; rfl
    unfold dlms
    rw [M.bind_ok (d hi), M.bind_ok e3]; rfl
  unfold bddAndK
  rw [calls_of_bind e1, calls_of_bind (dlms_startC e2), calls_of_bind (m := M.get) (s' := startC c) (a := startC c) rfl, calls_bind_of]
  rfl

theorem bddAndNK_calls {cfg : Cfg} {c : Coll} (hc : CInv c) {l ds : List Nat} {limit : Nat} (hl : ∀ i ∈ l, i < c.nrBdds) (e2 : dlms l c = .ok ds c)
    (hlim : cfg.ndebug = true ∨ 2 < limit) : (bddAndNK cfg l limit).calls c = (andImplNK limit (andFuel c ds) ds).calls (startC c) := by
  have e1 := andStart_run (cfg := cfg) (limit := limit) hc hl
  rw [if_neg (by rcases hlim with h | h <;> simp [h])] at e1
  unfold bddAndNK
  rw [calls_of_bind e1, calls_of_bind (dlms_startC e2), calls_of_bind (m := M.get) (s' := startC c) (a := startC c) rfl, calls_bind_of]
  rfl

/-- The smallest root variable belongs to the second operand, whose low child is the false sink: the first operand is unfolded. -/
theorem andImpl2K_first {limit : Nat} {c : Coll} (hg : c.gen = []) {n f g : Nat} {ef eg : Instr} {tf : Tree} (wf : InWf c.ins f) (wg : InWf c.ins g)
    (hef : c.ins[f]? = some ef) (heg : c.ins[g]? = some eg) (rf : CRepr c.ins f tf) (hlt : eg.index < ef.index) (hin : eg.Inner) (hfb : ef.index ≠ cBot)
    (hb : CRepr c.ins eg.lo .bot) (hn : msr c.ins [f, g] < n) : 2 * tf.size + 1 < (andImpl2K limit n [f, g]).calls c := by
  cases n with
  | zero => omega
  | succ n =>
    unfold andImpl2K
    rw [calls_tick, calls_of_bind (m := M.get) (s' := c) (a := c) rfl]
    have hl : c.gen.lookup [f, g] = none := by rw [hg]; rfl
    simp only [hl]
    rw [calls_of_bind (insAt_ok hef), calls_of_bind (insAt_ok heg)]
    have hgi : eg.isTerm = false ∧ eg.index < cBot := by
      rcases wg.term_cases heg with h | h | h
      · exact ⟨h.1, h.2.2.2⟩
      · exact absurd h.2.2.2 hin.1
      · exact absurd h.2.2.2 hin.2
    have hmin : min ef.index eg.index = eg.index := by omega
    have tail : 2 * tf.size + 1 ≤ (andTailK limit (andImpl2K limit n) [f, g] [ef, eg] (min ef.index eg.index)).calls c := by
      have hes : InsAll c.ins [f, g] [ef, eg] := ⟨hef, heg, trivial⟩
      have hk : ∀ k ∈ [f, g], InWf c.ins k := by intro k hk; simp at hk; rcases hk with rfl | rfl <;> assumption
      have hw := cofC_wf (v := eg.index) hgi.2 false hes hk
      have hcof : cofC false eg.index [f, g] [ef, eg] = [f, eg.lo] := by simp [cofC]; omega
      rw [hcof] at hw
      obtain ⟨a1, a2⟩ := andImpl2_dead (limit := limit) hg n f eg.lo tf .bot wf (hw.1 _ (by simp)) rf hb (Or.inl rfl)
        (by have := hw.2.2 ⟨eg, by simp, rfl⟩; omega)
      unfold andTailK
      rw [hmin, hcof, calls_bind ((andImpl2K_counts _ _).run a1), a2.with_bot wf rf hb]
      omega
    have hit : ef.isTerm = false ∨ (ef.isTerm = true ∧ ef.isBot = false) := by
      rcases wf.term_cases hef with h | h | h
      · exact Or.inl h.1
      · exact absurd h.2.2.2 hfb
      · exact Or.inr ⟨h.1, h.2.2.1⟩
    rcases hit with h | ⟨h, h'⟩
    · simp only [h, hgi.1, Bool.and_self, Bool.false_and, Bool.false_eq_true, if_false]; omega
    · simp only [h, h', hgi.1, Bool.and_false, Bool.not_false, Bool.and_self, Bool.not_true, Bool.false_eq_true, if_false, if_true]; omega

end LBDD
