import Verif.Proof.TempsOps
/-! The remaining functions, with and without temporary handles. -/
namespace LBDD

section
variable {α β : Type} {ba : Nat → Int} {cfg : Cfg} {d : Nat → Int} {s : Mgr}

theorem bind_pure_id (m : M Mgr α) : (m >>= fun r => Pure.pure r) = m := by
  funext t; show M.bind _ _ _ = _; unfold M.bind; cases m t <;> rfl

/-- A node pointer computed without temporaries, returned as a handle. -/
theorem Sim.toRef {m : M Mgr Nat} (h : Sim ba d s m m noRefs Live) : Sim ba d s m (m >>= fun r => newRef r) one Live := by
  have := h.bind (k := fun r => Pure.pure r) (kT := newRef) (e := one) (R := Live) fun r s' h1 _ l => .ref h1 l
  rwa [bind_pure_id] at this

/-! ### Ranges -/

def AllLive (l : List Nat) (s : Mgr) : Prop := ∀ p, p ∈ l → Live p s

theorem AllLive.ext {l : List Nat} {s s' : Mgr} (h : AllLive l s) (hx : CellsExt s.cells s'.cells) : AllLive l s' := fun p hp => (h p hp).ext hx
theorem AllLive.take {l : List Nat} (h : AllLive l s) (n : Nat) : AllLive (l.take n) s := fun p hp => h p (List.mem_of_mem_take hp)
theorem AllLive.drop {l : List Nat} (h : AllLive l s) (n : Nat) : AllLive (l.drop n) s := fun p hp => h p (List.mem_of_mem_drop hp)
theorem AllLive.head {a : Nat} {l : List Nat} (h : AllLive (a :: l) s) : Live a s := h a (List.mem_cons_self ..)
theorem AllLive.tail {a : Nat} {l : List Nat} (h : AllLive (a :: l) s) : AllLive l s := fun p hp => h p (List.mem_cons_of_mem _ hp)

theorem rangeRec_sim {op opT : Nat → Nat → M Mgr Nat} (ho : Sim2 ba op opT) : ∀ n (l : List Nat) (s : Mgr) (d : Nat → Int), Sane ba s → TempOk d s → AllLive l s →
    Sim ba d s (rangeRec cfg op n l) (rangeRecT cfg opT n l) one Live := by
  intro n
  induction n with
  | zero => intro l s d _ _ _; exact .hang
  | succ n ih =>
    intro l s d hs ht hl
    have gen : ∀ l : List Nat, AllLive l s → Sim ba d s (rangeRec cfg op n (l.take (l.length / 2)) >>= fun a1 => rangeRec cfg op n (l.drop (l.length / 2)) >>= fun a2 => op a1 a2)
        (rangeRecT cfg opT n (l.take (l.length / 2)) >>= fun a1 => holding cfg a1 (rangeRecT cfg opT n (l.drop (l.length / 2)) >>= fun a2 =>
          holding cfg a2 (call2 cfg opT a1 a2))) one Live := by
      intro l hl
      refine .localR owns_one ht (ih _ s d hs ht (hl.take _)) fun a1 s1 d1 _ h1 t1 x1 l1 => ?_
      refine .localR owns_one t1 (ih _ s1 d1 h1 t1 ((hl.drop _).ext x1)) fun a2 s2 d2 _ h2 t2 x2 l2 => ?_
      exact ho.call h2 t2 (l1.ext x2) l2
    unfold rangeRec rangeRecT
    refine .assert_bind ?_
    match l, hl with
    | [a, b], hl => exact ho.call hs ht hl.head hl.tail.head
    | [a, b, c], hl =>
      refine .localR owns_one ht (ho.call hs ht hl.tail.head hl.tail.tail.head) fun r s1 d1 _ h1 t1 x1 l1 => ?_
      exact .copy owns_one t1 (hl.head.ext x1) (ho _ _ _ _ h1 (t1.plus (hl.head.ext x1)) (hl.head.ext x1) l1)
    | [], hl => exact gen [] hl
    | [a], hl => exact gen [a] hl
    | a :: b :: c :: e :: l, hl => exact gen _ hl

theorem orRange_sim {l : List Nat} (hs : Sane ba s) (ht : TempOk d s) (hl : AllLive l s) : Sim ba d s (orRange cfg l) (orRangeT cfg l) one Live :=
  rangeRec_sim orOp_sim _ l s d hs ht hl

theorem Sim.copies {e : α → Nat → Int} {Q : α → Mgr → Prop} {m mT : M Mgr α} (ho : Owns e Q) : ∀ {l : List Nat} {d : Nat → Int}, TempOk d s → AllLive l s →
    (∀ d, TempOk d s → Sim ba d s m mT e Q) → Sim ba d s m (withCopies cfg l mT) e Q := by
  intro l
  induction l with
  | nil => intro d ht _ h; exact h d ht
  | cons a l ih => intro d ht hl h; exact .copy ho ht hl.head (ih (ht.plus hl.head) hl.tail h)

theorem variadic_sim {op opT : Nat → Nat → M Mgr Nat} (ho : Sim2 ba op opT) : ∀ (l : List Nat) (s : Mgr) (d : Nat → Int), Sane ba s → TempOk d s → AllLive l s →
    Sim ba d s (variadic op l) (variadicT cfg opT l) one Live := by
  intro l
  induction l with
  | nil => intro s d _ _ _; exact .hang
  | cons a l ih =>
    intro s d hs ht hl
    match l, hl, ih with
    | [], hl, ih => exact .hang
    | [b], hl, ih => exact ho _ _ _ _ hs ht hl.head hl.tail.head
    | b :: c :: l, hl, ih =>
      show Sim ba d s (variadic op (b :: c :: l) >>= fun t => op a t) (withCopies cfg (b :: c :: l) (variadicT cfg opT (b :: c :: l)) >>= fun t =>
        holding cfg t (call2 cfg opT a t)) one Live
      refine .localR owns_one ht (.copies owns_one ht hl.tail fun d ht => ih s d hs ht hl.tail) fun t s1 d1 _ h1 t1 x1 l1 => ?_
      exact ho.call h1 t1 (hl.head.ext x1) l1

theorem allFalseRec_sim : ∀ n (l : List Nat) (s : Mgr) (d : Nat → Int), Sane ba s → TempOk d s → AllLive l s →
    Sim ba d s (allFalseRec cfg n l) (allFalseRecT cfg n l) one Live := by
  intro n
  induction n with
  | zero => intro l s d _ _ _; exact .hang
  | succ n ih =>
    intro l s d hs ht hl
    have gen : ∀ l : List Nat, AllLive l s → Sim ba d s (args2 cfg (allFalseRec cfg n (l.take (l.length / 2))) (allFalseRec cfg n (l.drop (l.length / 2))) >>= fun r => andOp cfg r.1 r.2)
        (args2T cfg (allFalseRecT cfg n (l.take (l.length / 2))) (allFalseRecT cfg n (l.drop (l.length / 2))) (andOpT cfg)) one Live := by
      intro l hl
      exact .args2 owns_one hs ht (fun s1 d1 h1 t1 x1 => ih _ _ _ h1 t1 ((hl.take _).ext x1)) (fun s1 d1 h1 t1 x1 => ih _ _ _ h1 t1 ((hl.drop _).ext x1))
        fun a b s1 d1 h1 t1 x1 la lb => andOp_sim _ _ _ _ h1 t1 la lb
    unfold allFalseRec allFalseRecT
    refine .assert_bind ?_
    match l, hl with
    | [a], hl => exact negateOp_call hs ht hl.head
    | [a, b], hl =>
      exact .args2 owns_one hs ht (fun s1 d1 h1 t1 x1 => negateOp_call h1 t1 (hl.head.ext x1)) (fun s1 d1 h1 t1 x1 => negateOp_call h1 t1 (hl.tail.head.ext x1))
        fun a b s1 d1 h1 t1 x1 la lb => andOp_sim _ _ _ _ h1 t1 la lb
    | [], hl => exact gen [] hl
    | a :: b :: c :: l, hl => exact gen _ hl

theorem allFalse_sim {l : List Nat} (hs : Sane ba s) (ht : TempOk d s) (hl : AllLive l s) : Sim ba d s (allFalse cfg l) (allFalseT cfg l) one Live :=
  allFalseRec_sim _ l s d hs ht hl

theorem orNeg_sim {a b : Nat} (hs : Sane ba s) (ht : TempOk d s) (ha : Live a s) (hb : Live b s) : Sim ba d s (orNeg cfg a b) (orNegT cfg a b) one Live :=
  .args2 owns_one hs ht (fun _ _ h1 t1 x1 => negateOp_call h1 t1 (ha.ext x1)) (fun _ _ h1 t1 x1 => negateOp_call h1 t1 (hb.ext x1))
    fun _ _ _ _ h1 t1 _ la lb => orOp_sim _ _ _ _ h1 t1 la lb

/-- Three temporaries in one expression. -/
theorem Sim.args3 {m1 m1T m2 m2T m3 m3T : M Mgr Nat} {k kT : Nat → Nat → Nat → M Mgr β} {e : β → Nat → Int} {R : β → Mgr → Prop} (ho : Owns e R) (hs : Sane ba s)
    (ht : TempOk d s)
    (h1 : ∀ s' d', Sane ba s' → TempOk d' s' → CellsExt s.cells s'.cells → Sim ba d' s' m1 m1T one Live)
    (h2 : ∀ s' d', Sane ba s' → TempOk d' s' → CellsExt s.cells s'.cells → Sim ba d' s' m2 m2T one Live)
    (h3 : ∀ s' d', Sane ba s' → TempOk d' s' → CellsExt s.cells s'.cells → Sim ba d' s' m3 m3T one Live)
    (hk : ∀ a b c s' d', Sane ba s' → TempOk d' s' → CellsExt s.cells s'.cells → Live a s' → Live b s' → Live c s' → Sim ba d' s' (k a b c) (kT a b c) e R) :
    Sim ba d s (args3 cfg m1 m2 m3 >>= fun p => k p.1 p.2.1 p.2.2) (args3T cfg m1T m2T m3T kT) e R := by
  unfold LBDD.args3 args3T
  by_cases hr : cfg.rtl = true
  · rw [if_pos hr, if_pos hr]
    have e1 : ((m3 >>= fun c => m2 >>= fun b => m1 >>= fun a => (Pure.pure (a, b, c) : M Mgr (Nat × Nat × Nat))) >>= fun p => k p.1 p.2.1 p.2.2) =
        (m3 >>= fun c => m2 >>= fun b => m1 >>= fun a => k a b c) := by
      funext t
      show M.bind (M.bind m3 fun c => M.bind m2 fun b => M.bind m1 fun a => M.pure (a, b, c)) _ t = M.bind m3 (fun c => M.bind m2 fun b => M.bind m1 fun a => k a b c) t
      unfold M.bind
      cases m3 t with
      | ok b t1 =>
        simp only
        cases m2 t1 with
        | ok b t2 => simp only; cases m1 t2 <;> rfl
        | _ => rfl
      | _ => rfl
    show Sim ba d s ((m3 >>= fun c => m2 >>= fun b => m1 >>= fun a => Pure.pure (a, b, c)) >>= fun p => k p.1 p.2.1 p.2.2) _ e R
    rw [e1]
    refine .localR ho ht (h3 s d hs ht (.refl _)) fun c s1 d1 _ c1 t1 x1 l1 => .localR ho t1 (h2 s1 d1 c1 t1 x1) fun b s2 d2 _ c2 t2 x2 l2 =>
      .localR ho t2 (h1 s2 d2 c2 t2 (x1.trans x2)) fun a s3 d3 _ c3 t3 x3 l3 => ?_
    exact hk a b c s3 d3 c3 t3 ((x1.trans x2).trans x3) l3 (l2.ext x3) ((l1.ext x2).ext x3)
  · rw [if_neg hr, if_neg hr]
    have e1 : ((m1 >>= fun a => m2 >>= fun b => m3 >>= fun c => (Pure.pure (a, b, c) : M Mgr (Nat × Nat × Nat))) >>= fun p => k p.1 p.2.1 p.2.2) =
        (m1 >>= fun a => m2 >>= fun b => m3 >>= fun c => k a b c) := by
      funext t
      show M.bind (M.bind m1 fun a => M.bind m2 fun b => M.bind m3 fun c => M.pure (a, b, c)) _ t = M.bind m1 (fun a => M.bind m2 fun b => M.bind m3 fun c => k a b c) t
      unfold M.bind
      cases m1 t with
      | ok b t1 =>
        simp only
        cases m2 t1 with
        | ok b t2 => simp only; cases m3 t2 <;> rfl
        | _ => rfl
      | _ => rfl
    show Sim ba d s ((m1 >>= fun a => m2 >>= fun b => m3 >>= fun c => Pure.pure (a, b, c)) >>= fun p => k p.1 p.2.1 p.2.2) _ e R
    rw [e1]
    refine .localR ho ht (h1 s d hs ht (.refl _)) fun a s1 d1 _ c1 t1 x1 l1 => .localR ho t1 (h2 s1 d1 c1 t1 x1) fun b s2 d2 _ c2 t2 x2 l2 =>
      .localR ho t2 (h3 s2 d2 c2 t2 (x1.trans x2)) fun c s3 d3 _ c3 t3 x3 l3 => ?_
    exact hk a b c s3 d3 c3 t3 ((x1.trans x2).trans x3) ((l1.ext x2).ext x3) (l2.ext x3) l3

theorem atMostOneRec_sim : ∀ n (l : List Nat) (s : Mgr) (d : Nat → Int), Sane ba s → TempOk d s → AllLive l s →
    Sim ba d s (atMostOneRec cfg n l) (atMostOneRecT cfg n l) one Live := by
  intro n
  induction n with
  | zero => intro l s d _ _ _; exact .hang
  | succ n ih =>
    intro l s d hs ht hl
    have gen : ∀ l : List Nat, AllLive l s → Sim ba d s (do
        let a1 ← atMostOneRec cfg n (l.take (l.length / 2))
        let f1 ← allFalse cfg (l.take (l.length / 2))
        let a2 ← atMostOneRec cfg n (l.drop (l.length / 2))
        let f2 ← allFalse cfg (l.drop (l.length / 2))
        let r ← args2 cfg (andOp cfg a1 f2) (andOp cfg a2 f1)
        orOp cfg r.1 r.2) (do
        let a1 ← atMostOneRecT cfg n (l.take (l.length / 2))
        holding cfg a1 do
          let f1 ← allFalseT cfg (l.take (l.length / 2))
          holding cfg f1 do
            let a2 ← atMostOneRecT cfg n (l.drop (l.length / 2))
            holding cfg a2 do
              let f2 ← allFalseT cfg (l.drop (l.length / 2))
              holding cfg f2 (args2T cfg (LBDD.call2 cfg (andOpT cfg) a1 f2) (LBDD.call2 cfg (andOpT cfg) a2 f1) (orOpT cfg))) one Live := by
      intro l hl
      refine .localR owns_one ht (ih _ s d hs ht (hl.take _)) fun a1 s1 d1 _ h1 t1 x1 l1 => ?_
      refine .localR owns_one t1 (allFalse_sim h1 t1 ((hl.take _).ext x1)) fun f1 s2 d2 _ h2 t2 x2 l2 => ?_
      have x2' := x1.trans x2
      refine .localR owns_one t2 (ih _ s2 d2 h2 t2 ((hl.drop _).ext x2')) fun a2 s3 d3 _ h3 t3 x3 l3 => ?_
      refine .localR owns_one t3 (allFalse_sim h3 t3 ((hl.drop _).ext (x2'.trans x3))) fun f2 s4 d4 _ h4 t4 x4 l4 => ?_
      refine .args2 owns_one h4 t4 (fun s5 d5 h5 t5 x5 => andOp_sim.call h5 t5 ((((l1.ext x2).ext x3).ext x4).ext x5) (l4.ext x5))
        (fun s5 d5 h5 t5 x5 => andOp_sim.call h5 t5 ((l3.ext x4).ext x5) (((l2.ext x3).ext x4).ext x5)) fun a b s5 d5 h5 t5 x5 la lb => orOp_sim _ _ _ _ h5 t5 la lb
    unfold atMostOneRec atMostOneRecT
    refine .assert_bind ?_
    match l, hl with
    | [a], hl => exact .ref hs hs.live1
    | [a, b], hl => exact orNeg_sim hs ht hl.head hl.tail.head
    | [a, b, c], hl =>
      show Sim ba d s (args3 cfg (orNeg cfg a b) (orNeg cfg a c) (orNeg cfg b c) >>= fun r => variadic (andOp cfg) [r.1, r.2.1, r.2.2])
        (args3T cfg (orNegT cfg a b) (orNegT cfg a c) (orNegT cfg b c) fun x y z => variadicT cfg (andOpT cfg) [x, y, z]) one Live
      refine Sim.args3 (k := fun x y z => variadic (andOp cfg) [x, y, z]) (kT := fun x y z => variadicT cfg (andOpT cfg) [x, y, z]) owns_one hs ht (fun s1 d1 h1 t1 x1 => orNeg_sim h1 t1 (hl.head.ext x1) (hl.tail.head.ext x1))
        (fun s1 d1 h1 t1 x1 => orNeg_sim h1 t1 (hl.head.ext x1) (hl.tail.tail.head.ext x1))
        (fun s1 d1 h1 t1 x1 => orNeg_sim h1 t1 (hl.tail.head.ext x1) (hl.tail.tail.head.ext x1)) fun x y z s1 d1 h1 t1 x1 lx ly lz => ?_
      refine variadic_sim andOp_sim _ _ _ h1 t1 fun p hp => ?_
      simp only [List.mem_cons, List.not_mem_nil, or_false] at hp
      rcases hp with rfl | rfl | rfl <;> assumption
    | [], hl => exact gen [] hl
    | a :: b :: c :: e :: l, hl => exact gen _ hl

theorem atMostOne_sim {l : List Nat} (hs : Sane ba s) (ht : TempOk d s) (hl : AllLive l s) : Sim ba d s (atMostOne cfg l) (atMostOneT cfg l) one Live :=
  atMostOneRec_sim _ l s d hs ht hl

theorem simplex_sim {l : List Nat} (hs : Sane ba s) (ht : TempOk d s) (hl : AllLive l s) : Sim ba d s (simplex cfg l) (simplexT cfg l) one Live := by
  have gen : ∀ l : List Nat, AllLive l s → Sim ba d s (orRange cfg l >>= fun alo => atMostOne cfg l >>= fun amo => andOp cfg alo amo)
      (orRangeT cfg l >>= fun alo => holding cfg alo (atMostOneT cfg l >>= fun amo => holding cfg amo (LBDD.call2 cfg (andOpT cfg) alo amo))) one Live := by
    intro l hl
    refine .localR owns_one ht (orRange_sim hs ht hl) fun a s1 d1 _ h1 t1 x1 l1 => ?_
    refine .localR owns_one t1 (atMostOne_sim h1 t1 (hl.ext x1)) fun b s2 d2 _ h2 t2 x2 l2 => andOp_sim.call h2 t2 (l1.ext x2) l2
  unfold simplex simplexT
  refine .assert_bind ?_
  match l, hl with
  | [a], hl => exact .ref hs hl.head
  | [], hl => exact gen [] hl
  | a :: b :: l, hl => exact gen _ hl

theorem atLeastOne_sim {l : List Nat} (hs : Sane ba s) (ht : TempOk d s) (hl : AllLive l s) : Sim ba d s (atLeastOne cfg l) (atLeastOneT cfg l) one Live := by
  unfold atLeastOne atLeastOneT
  exact .localR owns_one ht (allFalse_sim hs ht hl) fun r s1 d1 _ h1 t1 x1 l1 => negateOp_sim h1 t1 l1

/-- A vector of handles filled by a loop. -/
theorem Sim.collect {f fT : α → M Mgr Nat} {e : β → Nat → Int} {R : β → Mgr → Prop} (ho : Owns e R) : ∀ (l : List α) {k kT : List Nat → M Mgr β} {s : Mgr} {d : Nat → Int},
    Sane ba s → TempOk d s →
    (∀ a, a ∈ l → ∀ s' d', Sane ba s' → TempOk d' s' → CellsExt s.cells s'.cells → Sim ba d' s' (f a) (fT a) one Live) →
    (∀ rs s' d', Sane ba s' → TempOk d' s' → CellsExt s.cells s'.cells → AllLive rs s' → Sim ba d' s' (k rs) (kT rs) e R) →
    Sim ba d s (mapM' f l >>= k) (collectT cfg fT l kT) e R := by
  intro l
  induction l with
  | nil => intro k kT s d hs ht _ hk; exact hk [] s d hs ht (.refl _) (fun p hp => by cases hp)
  | cons a l ih =>
    intro k kT s d hs ht hf hk
    have e1 : (mapM' f (a :: l) >>= k) = (f a >>= fun r => mapM' f l >>= fun rs => k (r :: rs)) := by
      funext t
      show M.bind (M.bind (f a) fun r => M.bind (mapM' f l) fun rs => M.pure (r :: rs)) k t = M.bind (f a) (fun r => M.bind (mapM' f l) fun rs => k (r :: rs)) t
      unfold M.bind
      cases f a t with
      | ok r t1 => simp only; cases mapM' f l t1 <;> rfl
      | _ => rfl
    rw [e1]
    unfold collectT
    refine .localR ho ht (hf a (List.mem_cons_self ..) s d hs ht (.refl _)) fun r s1 d1 _ h1 t1 x1 l1 => ?_
    refine ih h1 t1 (fun b hb s' d' h t x => hf b (List.mem_cons_of_mem _ hb) s' d' h t (x1.trans x)) fun rs s' d' h t x hl => ?_
    refine hk (r :: rs) s' d' h t (x1.trans x) fun p hp => ?_
    rcases List.mem_cons.1 hp with rfl | hp
    · exact l1.ext x
    · exact hl p hp

theorem countRec_sim {leaf leafT : List Nat → Nat → Option (M Mgr Nat)}
    (hn : ∀ l b, (leaf l b).isSome = (leafT l b).isSome)
    (hsim : ∀ l b m mT (s : Mgr) (d : Nat → Int), leaf l b = some m → leafT l b = some mT → Sane ba s → TempOk d s → AllLive l s → Sim ba d s m mT one Live) :
    ∀ n (l : List Nat) (b : Nat) (s : Mgr) (d : Nat → Int), Sane ba s → TempOk d s → AllLive l s →
      Sim ba d s (countRec cfg leaf n l b) (countRecT cfg leafT n l b) one Live := by
  intro n
  induction n with
  | zero => intro l b s d _ _ _; exact .hang
  | succ n ih =>
    intro l b s d hs ht hl
    unfold countRec countRecT
    refine .assert_bind ?_
    have hnn := hn l b
    cases e1 : leaf l b with
    | some m =>
      cases e2 : leafT l b with
      | some mT => exact hsim l b m mT s d e1 e2 hs ht hl
      | none => rw [e1, e2] at hnn; cases hnn
    | none =>
      cases e2 : leafT l b with
      | some mT => rw [e1, e2] at hnn; cases hnn
      | none =>
        refine .collect owns_one _ hs ht (fun i _ s1 d1 h1 t1 x1 => ih _ _ _ _ h1 t1 ((hl.take _).ext x1)) fun left s1 d1 h1 t1 x1 l1 => ?_
        refine .collect owns_one _ h1 t1 (fun i _ s2 d2 h2 t2 x2 => ih _ _ _ _ h2 t2 ((hl.drop _).ext (x1.trans x2))) fun right s2 d2 h2 t2 x2 l2 => ?_
        refine .collect owns_one _ h2 t2 (fun p hp s3 d3 h3 t3 x3 => ?_) fun combine s3 d3 h3 t3 x3 l3 => orRange_sim h3 t3 l3
        have hm := List.of_mem_zip hp
        exact andOp_sim.call h3 t3 (((l1 _ hm.1).ext x2).ext x3) ((l2 _ (List.mem_reverse.1 hm.2)).ext x3)

theorem headD_live {l : List Nat} (hs : Sane ba s) (hl : AllLive l s) : Live (l.headD 0) s := by
  cases l with
  | nil => exact hs.live0
  | cons a l => exact hl.head

theorem atLeast_sim {l : List Nat} {b : Nat} (hs : Sane ba s) (ht : TempOk d s) (hl : AllLive l s) :
    Sim ba d s (atLeast cfg l b) (countRecT cfg atLeastLeafT (l.length + 1) l b) one Live := by
  refine countRec_sim ?_ ?_ _ l b s d hs ht hl
  · intro l b; unfold atLeastLeaf atLeastLeafT; repeat' (first | rfl | split)
  · intro l b m mT s d e1 e2 hs ht hl
    unfold atLeastLeaf at e1
    unfold atLeastLeafT at e2
    split at e1
    · rename_i c; rw [if_pos c] at e2; cases e1; cases e2; exact .ref hs hs.live0
    · rename_i c; rw [if_neg c] at e2
      split at e1
      · rename_i c; rw [if_pos c] at e2; cases e1; cases e2; exact .ref hs (headD_live hs hl)
      · rename_i c; rw [if_neg c] at e2
        split at e1
        · rename_i c; rw [if_pos c] at e2; cases e1; cases e2; exact .ref hs hs.live1
        · cases e1

theorem atMost_sim {l : List Nat} {b : Nat} (hs : Sane ba s) (ht : TempOk d s) (hl : AllLive l s) :
    Sim ba d s (atMost cfg l b) (countRecT cfg (atMostLeafT cfg) (l.length + 1) l b) one Live := by
  refine countRec_sim ?_ ?_ _ l b s d hs ht hl
  · intro l b; unfold atMostLeaf atMostLeafT; repeat' (first | rfl | split)
  · intro l b m mT s d e1 e2 hs ht hl
    unfold atMostLeaf at e1
    unfold atMostLeafT at e2
    split at e1
    · rename_i c; rw [if_pos c] at e2; cases e1; cases e2; exact .ref hs hs.live0
    · rename_i c; rw [if_neg c] at e2
      split at e1
      · rename_i c; rw [if_pos c] at e2; cases e1; cases e2; exact .ref hs hs.live1
      · rename_i c; rw [if_neg c] at e2
        split at e1
        · rename_i c; rw [if_pos c] at e2; cases e1; cases e2; exact negateOp_call hs ht (headD_live hs hl)
        · rename_i c; rw [if_neg c] at e2
          split at e1
          · rename_i c; rw [if_pos c] at e2; cases e1; cases e2; exact allFalse_sim hs ht hl
          · cases e1

theorem cardinality_sim {l : List Nat} {b : Nat} (hs : Sane ba s) (ht : TempOk d s) (hl : AllLive l s) :
    Sim ba d s (cardinality cfg l b) (countRecT cfg (cardLeafT cfg) (l.length + 1) l b) one Live := by
  refine countRec_sim ?_ ?_ _ l b s d hs ht hl
  · intro l b; unfold cardLeaf cardLeafT; repeat' (first | rfl | split)
  · intro l b m mT s d e1 e2 hs ht hl
    unfold cardLeaf at e1
    unfold cardLeafT at e2
    split at e1
    · rename_i c; rw [if_pos c] at e2; cases e1; cases e2; exact .ref hs hs.live0
    · rename_i c; rw [if_neg c] at e2
      split at e1
      · rename_i c; rw [if_pos c] at e2; cases e1; cases e2; exact .ref hs (headD_live hs hl)
      · rename_i c; rw [if_neg c] at e2
        split at e1
        · rename_i c; rw [if_pos c] at e2; cases e1; cases e2; exact negateOp_call hs ht (headD_live hs hl)
        · rename_i c; rw [if_neg c] at e2
          split at e1
          · rename_i c; rw [if_pos c] at e2; cases e1; cases e2; exact allFalse_sim hs ht hl
          · cases e1

/-! ### Traversals -/

theorem Sim.isTerm (hs : Sane ba s) (p : Nat) : Sim ba d s (isTerm cfg p) (isTerm cfg p) noRefs Anything := by
  unfold LBDD.isTerm
  exact .bind (.isTop hs p) fun b s1 h1 _ _ => .ite (fun _ => .pure h1 trivial) fun _ => .isBot h1 p

theorem Sim.getMark (hs : Sane ba s) (p : Nat) : Sim ba d s (getMark p) (getMark p) noRefs Anything := by
  unfold Sim
  show _ ∧ _
  refine ⟨?_, hs, .refl _, trivial⟩
  rw [show plus d (noRefs (s.marks p)) = d from plus_zero d]; rfl

theorem Sim.setMark (hs : Sane ba s) (p : Nat) (b : Bool) : Sim ba d s (setMark p b) (setMark p b) noRefs Anything := by
  unfold Sim
  show _ ∧ _
  refine ⟨?_, ⟨hs.xref, ⟨hs.pool.pages, hs.pool.off, hs.pool.off2, hs.pool.live, hs.pool.avail, hs.pool.nodup, hs.pool.total⟩, hs.child, hs.memo, hs.live0, hs.live1, hs.base, hs.bal⟩,
    .refl _, trivial⟩
  rw [show plus d (noRefs ()) = d from plus_zero d]; rfl

theorem Sim.visit {post : Bool} : ∀ n (p : Nat) (s : Mgr), Sane ba s → Live p s → Sim ba d s (visit cfg post n p) (visit cfg post n p) noRefs AllLive := by
  intro n
  induction n with
  | zero => intro p s _ _; exact .hang
  | succ n ih =>
    intro p s hs hp
    unfold LBDD.visit
    refine .bind (.isTerm hs p) fun b s1 h1 x1 _ => .ite (fun _ => .pure h1 (fun q hq => by cases hq)) fun _ => ?_
    refine .bind (.getMark h1 p) fun m s2 h2 x2 _ => .assert_bind (.bind (.setMark h2 p true) fun _ s3 h3 x3 _ => ?_)
    refine .bind (.lowOf h3 p) fun lo s4 h4 x4 l4 => ?_
    have um : ∀ (q : Nat) (s : Mgr), Sane ba s → Live q s → Sim ba d s (ifUnmarked (LBDD.visit cfg post n) q) (ifUnmarked (LBDD.visit cfg post n) q) noRefs AllLive := by
      intro q s hs hq
      unfold ifUnmarked
      exact .bind (.getMark hs q) fun b s1 h1 x1 _ => .ite (fun _ => .pure h1 (fun q hq => by cases hq)) fun _ => ih q s1 h1 (hq.ext x1)
    refine .bind (um lo s4 h4 l4) fun a s5 h5 x5 q5 => .bind (.highOf h5 p) fun hi s6 h6 x6 l6 => .bind (um hi s6 h6 l6) fun b s7 h7 x7 q7 => .pure h7 ?_
    have lp : Live p s7 := ((((((hp.ext x1).ext x2).ext x3).ext x4).ext x5).ext x6).ext x7
    intro q hq
    have : q = p ∨ q ∈ a ∨ q ∈ b := by
      cases post <;> simp only [if_true, if_false, Bool.false_eq_true, List.mem_append, List.mem_cons, List.not_mem_nil, or_false] at hq
      · exact hq
      · rcases hq with (h | h) | h
        · exact Or.inr (Or.inl h)
        · exact Or.inr (Or.inr h)
        · exact Or.inl h
    rcases this with rfl | h | h
    · exact lp
    · exact ((q5 q h).ext x6).ext x7
    · exact q7 q h

theorem Sim.unmark : ∀ n (p : Nat) (s : Mgr), Sane ba s → Sim ba d s (unmark cfg n p) (unmark cfg n p) noRefs Anything := by
  intro n
  induction n with
  | zero => intro p s _; exact .hang
  | succ n ih =>
    intro p s hs
    unfold LBDD.unmark
    refine .bind (.isTerm hs p) fun b s1 h1 x1 _ => .ite (fun _ => .pure h1 trivial) fun _ => ?_
    refine .bind (.getMark h1 p) fun m s2 h2 x2 _ => .ite (fun _ => ?_) fun _ => .pure h2 trivial
    exact .bind (.setMark h2 p false) fun _ s3 h3 _ _ => .bind (.lowOf h3 p) fun lo s4 h4 _ _ => .bind (ih lo s4 h4) fun _ s5 h5 _ _ =>
      .bind (.highOf h5 p) fun hi s6 h6 _ _ => ih hi s6 h6

theorem Sim.nrNodes (hs : Sane ba s) {p : Nat} (hp : Live p s) : Sim ba d s (nrNodes cfg p) (nrNodes cfg p) noRefs Anything := by
  unfold LBDD.nrNodes
  refine .get (.bind (.getMark hs p) fun m s1 h1 x1 _ => .assert_bind (.bind (.visit _ p s1 h1 (hp.ext x1)) fun l s2 h2 _ _ => ?_))
  exact .bind (.unmark _ p s2 h2) fun _ s3 h3 _ _ => .pure h3 trivial

theorem Sim.assertCount (hs : Sane ba s) {p k : Nat} (hp : Live p s) : Sim ba d s (assertCount cfg p k) (assertCount cfg p k) noRefs Anything := by
  unfold LBDD.assertCount
  exact .ite (fun _ => .pure hs trivial) fun _ => .bind (.nrNodes hs hp) fun n s1 h1 _ _ => .assert h1

theorem Sim.nodesPostorder (hs : Sane ba s) {p : Nat} (hp : Live p s) : Sim ba d s (nodesPostorder cfg p) (nodesPostorder cfg p) noRefs AllLive := by
  unfold LBDD.nodesPostorder
  refine .get (.bind (.getMark hs p) fun m s1 h1 x1 _ => .assert_bind (.bind (.visit _ p s1 h1 (hp.ext x1)) fun l s2 h2 x2 q2 => ?_))
  refine .bind (.unmark _ p s2 h2) fun _ s3 h3 x3 _ => .bind (.assertCount h3 (((hp.ext x1).ext x2).ext x3)) fun _ s4 h4 x4 _ => .pure h4 ?_
  exact (q2.ext x3).ext x4

theorem Sim.bfsPush (hs : Sane ba s) {q : Nat} {dq : List Nat} (hq : Live q s) (hd : AllLive dq s) :
    Sim ba d s (bfsPush cfg q dq) (bfsPush cfg q dq) noRefs AllLive := by
  unfold LBDD.bfsPush
  refine .bind (.isTerm hs q) fun b s1 h1 x1 _ => .ite (fun _ => .pure h1 (hd.ext x1)) fun _ => ?_
  refine .bind (.getMark h1 q) fun m s2 h2 x2 _ => .ite (fun _ => .pure h2 ((hd.ext x1).ext x2)) fun _ => ?_
  refine .bind (.setMark h2 q true) fun _ s3 h3 x3 _ => .pure h3 fun p hp => ?_
  rcases List.mem_append.1 hp with h | h
  · exact (((hd p h).ext x1).ext x2).ext x3
  · rw [List.mem_singleton.1 h]; exact ((hq.ext x1).ext x2).ext x3

theorem Sim.bfsLoop : ∀ n (dq acc : List Nat) (s : Mgr), Sane ba s → AllLive dq s → AllLive acc s →
    Sim ba d s (bfsLoop cfg n dq acc) (bfsLoop cfg n dq acc) noRefs AllLive := by
  intro n
  induction n with
  | zero =>
    intro dq acc s hs hd ha
    cases dq with
    | nil => exact .pure hs ha
    | cons p dq => exact .hang
  | succ n ih =>
    intro dq acc s hs hd ha
    cases dq with
    | nil => exact .pure hs ha
    | cons p dq =>
      unfold LBDD.bfsLoop
      refine .bind (.getMark hs p) fun m s1 h1 x1 _ => .assert_bind (.bind (.lowOf h1 p) fun lo s2 h2 x2 l2 => ?_)
      refine .bind (.bfsPush h2 l2 ((hd.tail.ext x1).ext x2)) fun dq1 s3 h3 x3 q3 => .bind (.highOf h3 p) fun hi s4 h4 x4 l4 => ?_
      refine .bind (.bfsPush h4 l4 (q3.ext x4)) fun dq2 s5 h5 x5 q5 => ih _ _ s5 h5 q5 fun q hq => ?_
      have x : CellsExt s.cells s5.cells := (((x1.trans x2).trans x3).trans x4).trans x5
      rcases List.mem_append.1 hq with h | h
      · exact (ha q h).ext x
      · rw [List.mem_singleton.1 h]; exact hd.head.ext x

theorem Sim.nodesBfs (hs : Sane ba s) {p : Nat} (hp : Live p s) : Sim ba d s (nodesBfs cfg p) (nodesBfs cfg p) noRefs AllLive := by
  unfold LBDD.nodesBfs
  refine .get (.bind (.getMark hs p) fun m s1 h1 x1 _ => .assert_bind (.bind (.setMark h1 p true) fun _ s2 h2 x2 _ => ?_))
  have l2 := (hp.ext x1).ext x2
  refine .bind (.bfsLoop _ [p] [] s2 h2 (fun q hq => by rw [List.mem_singleton.1 hq]; exact l2) (fun q hq => by cases hq)) fun l s3 h3 x3 q3 => ?_
  refine .bind (.unmark _ p s3 h3) fun _ s4 h4 x4 _ => .bind (.assertCount h4 ((l2.ext x3).ext x4)) fun _ s5 h5 x5 _ => .pure h5 ?_
  exact (q3.ext x4).ext x5

theorem Sim.variables (hs : Sane ba s) {p : Nat} (hp : Live p s) : Sim ba d s (variables cfg p) (variables cfg p) noRefs Anything := by
  unfold LBDD.variables
  refine .get (.bind (.visit _ p s hs hp) fun l s2 h2 x2 q2 => .bind (.unmark _ p s2 h2) fun _ s3 h3 x3 _ => ?_)
  exact .pure (Q := Anything) h3 trivial

theorem Sim.printArcs (hs : Sane ba s) {p : Nat} (hp : Live p s) : Sim ba d s (printArcs cfg p) (printArcs cfg p) noRefs Anything := by
  unfold LBDD.printArcs
  refine .get (.bind (.visit _ p s hs hp) fun l s2 h2 x2 q2 => .bind (.unmark _ p s2 h2) fun _ s3 h3 x3 _ => ?_)
  exact .pure (Q := Anything) h3 trivial

theorem Sim.exactlyOne : ∀ n (p : Nat) (s : Mgr), Sane ba s → Sim ba d s (exactlyOne cfg n p) (exactlyOne cfg n p) noRefs Anything := by
  intro n
  induction n with
  | zero => intro p s _; exact .hang
  | succ n ih =>
    intro p s hs
    unfold LBDD.exactlyOne
    refine .bind (.isTop hs p) fun b s1 h1 _ _ => .ite (fun _ => .pure h1 trivial) fun _ => ?_
    refine .bind (.isBot h1 p) fun b s2 h2 _ _ => .ite (fun _ => .pure h2 trivial) fun _ => ?_
    refine .bind (.lowOf h2 p) fun lo s3 h3 _ _ => .bind (.highOf h3 p) fun hi s4 h4 _ _ => ?_
    refine .bind (.isBot h4 lo) fun b s5 h5 _ _ => .ite (fun _ => ih hi s5 h5) fun _ => ?_
    exact .bind (.isBot h5 hi) fun b s6 h6 _ _ => .ite (fun _ => ih lo s6 h6) fun _ => .pure h6 trivial

theorem Sim.exactlyOneSolution (hs : Sane ba s) (p : Nat) : Sim ba d s (exactlyOneSolution cfg p) (exactlyOneSolution cfg p) noRefs Anything := by
  unfold LBDD.exactlyOneSolution
  exact .get (.exactlyOne _ p s hs)

theorem Sim.findMgr : ∀ n (p : Nat) (s : Mgr), Sane ba s → Sim ba d s (findMgr cfg n p) (findMgr cfg n p) noRefs Anything := by
  intro n
  induction n with
  | zero => intro p s _; exact .hang
  | succ n ih =>
    intro p s hs
    unfold LBDD.findMgr
    refine .bind (.isTerm hs p) fun b s1 h1 _ _ => .ite (fun _ => .pure h1 trivial) fun _ => .bind (.lowOf h1 p) fun lo s2 h2 _ _ => ?_
    refine .bind (.isTerm h2 lo) fun b s3 h3 _ _ => .ite (fun _ => .pure h3 trivial) fun _ => .bind (.highOf h3 p) fun hi s4 h4 _ _ => ih hi s4 h4

theorem Sim.findBddMgr (hs : Sane ba s) (p : Nat) : Sim ba d s (findBddMgr cfg p) (findBddMgr cfg p) noRefs Anything := by
  unfold LBDD.findBddMgr
  exact .get (.findMgr _ p s hs)

/-! ### Variables and renaming -/

theorem Sim.addVariable (hs : Sane ba s) : Sim ba d s (addVariable cfg) (addVariable cfg) noRefs Anything := by
  unfold LBDD.addVariable
  refine .get (.assert_bind ?_)
  unfold Sim
  show _ ∧ _
  refine ⟨?_, ⟨hs.xref, ⟨hs.pool.pages, hs.pool.off, hs.pool.off2, hs.pool.live, hs.pool.avail, hs.pool.nodup, hs.pool.total⟩, hs.child, hs.memo, hs.live0, hs.live1, hs.base, hs.bal⟩,
    .refl _, trivial⟩
  rw [show plus d (noRefs s.nvars) = d from plus_zero d]; rfl

theorem Sim.addVariables : ∀ n (s : Mgr), Sane ba s → Sim ba d s (addVariables cfg n) (addVariables cfg n) noRefs Anything := by
  intro n
  induction n with
  | zero => intro s hs; exact .pure hs trivial
  | succ n ih => intro s hs; exact .bind (.addVariable hs) fun _ s1 h1 _ _ => ih s1 h1

theorem Sim.ensureVar (hs : Sane ba s) (v : Nat) : Sim ba d s (ensureVar cfg v) (ensureVar cfg v) noRefs Anything := by
  unfold LBDD.ensureVar
  exact .get (.addVariables _ s hs)

theorem Sim.projection (hs : Sane ba s) (ht : TempOk d s) (v : Nat) : Sim ba d s (projection cfg v) (projection cfg v) noRefs Live := by
  unfold LBDD.projection
  exact .bind (.ensureVar hs v) fun _ s1 h1 x1 _ => .uniqueFind h1 (ht.ext x1) v h1.live0 h1.live1

theorem Sim.negProjection (hs : Sane ba s) (ht : TempOk d s) (v : Nat) : Sim ba d s (negProjection cfg v) (negProjection cfg v) noRefs Live := by
  unfold LBDD.negProjection
  exact .get (.assert_bind (.uniqueFind hs ht v hs.live1 hs.live0))

theorem Sim.mgrUniqueFind (hs : Sane ba s) (ht : TempOk d s) (v : Nat) {l h : Nat} (hl : Live l s) (hh : Live h s) :
    Sim ba d s (mgrUniqueFind cfg v l h) (mgrUniqueFind cfg v l h) noRefs Live := by
  unfold LBDD.mgrUniqueFind
  exact .get (.assert_bind (.uniqueFind hs ht v hl hh))

def MapLive (nm : List (Nat × Nat)) (s : Mgr) : Prop := ∀ k r, nm.lookup k = some r → Live r s

theorem MapLive.ext {nm : List (Nat × Nat)} {s s' : Mgr} (h : MapLive nm s) (hx : CellsExt s.cells s'.cells) : MapLive nm s' := fun k r e => (h k r e).ext hx

theorem MapLive.cons {nm : List (Nat × Nat)} (h : MapLive nm s) (k : Nat) {r : Nat} (hr : Live r s) : MapLive ((k, r) :: nm) s := by
  intro k' r' e
  rw [List.lookup_cons] at e
  split at e
  · cases e; exact hr
  · exact h k' r' e

theorem MapLive.insert {nm : List (Nat × Nat)} (h : MapLive nm s) (k : Nat) {r : Nat} (hr : Live r s) : MapLive (insertNew nm k r) s := by
  unfold insertNew
  split
  · exact h
  · exact h.cons k hr

theorem MapLive.nil : MapLive [] s := fun k r e => by cases e

theorem Sim.rebaseLoop {look : Nat → Option Nat} : ∀ (ps : List Nat) (nm : List (Nat × Nat)) (s : Mgr), Sane ba s → TempOk d s → MapLive nm s →
    Sim ba d s (rebaseLoop cfg look ps nm) (rebaseLoop cfg look ps nm) noRefs MapLive := by
  intro ps
  induction ps with
  | nil => intro nm s hs _ hm; exact .pure hs hm
  | cons p ps ih =>
    intro nm s hs ht hm
    unfold LBDD.rebaseLoop
    refine .get ?_
    simp only [xs_lo, xs_hi, xs_index]
    cases e1 : look (s.cells p).index with
    | none => exact .assert_bind .ub
    | some v =>
      cases e2 : nm.lookup (s.cells p).lo with
      | none => exact .assert_bind .ub
      | some l =>
        cases e3 : nm.lookup (s.cells p).hi with
        | none => exact .assert_bind .ub
        | some h =>
          exact .bind (.uniqueFind hs ht v (hm _ _ e2) (hm _ _ e3)) fun r s1 h1 x1 l1 => ih _ s1 h1 (ht.ext x1) ((hm.ext x1).cons p l1)

theorem Sim.rebaseWith (hs : Sane ba s) (ht : TempOk d s) {look : Nat → Option Nat} {p : Nat} (hp : Live p s) :
    Sim ba d s (rebaseWith cfg look p) (rebaseWith cfg look p) noRefs Live := by
  unfold LBDD.rebaseWith
  refine .bind (.nodesPostorder hs hp) fun l s1 h1 x1 _ => .bind (.rebaseLoop l _ s1 h1 (ht.ext x1) ?_) fun nm s2 h2 x2 q2 => ?_
  · exact (MapLive.nil.cons topId h1.live1).cons botId h1.live0
  · cases e : nm.lookup p with
    | none => exact .ub
    | some r => exact .pure h2 (q2 _ _ e)

theorem Sim.rebaseMap (hs : Sane ba s) (ht : TempOk d s) {p : Nat} (hp : Live p s) (m : List (Nat × Nat)) :
    Sim ba d s (rebaseMap cfg p m) (rebaseMap cfg p m) noRefs Live := by
  unfold LBDD.rebaseMap
  exact .bind (.ensureVar hs _) fun _ s1 h1 x1 _ => .rebaseWith h1 (ht.ext x1) (hp.ext x1)

theorem Sim.assertBack (hs : Sane ba s) {p : Nat} (hp : Live p s) (k : Nat) : Sim ba d s (assertBack cfg p k) (assertBack cfg p k) noRefs Anything := by
  unfold LBDD.assertBack
  refine .ite (fun _ => .pure hs trivial) fun _ => .bind (.variables hs hp) fun l s1 h1 _ _ => ?_
  cases l.getLast? with
  | none => exact .ub
  | some v => exact .assert h1

theorem Sim.rebaseVec (hs : Sane ba s) (ht : TempOk d s) {p : Nat} (hp : Live p s) (m : List Nat) :
    Sim ba d s (rebaseVec cfg p m) (rebaseVec cfg p m) noRefs Live := by
  unfold LBDD.rebaseVec
  refine .bind (.assertBack hs hp _) fun _ s1 h1 x1 _ => ?_
  cases m with
  | nil => exact .ub
  | cons a m => exact .bind (.ensureVar h1 _) fun _ s2 h2 x2 _ => .rebaseWith h2 ((ht.ext x1).ext x2) ((hp.ext x1).ext x2)

/-! ### Limited conjunction -/

def oneLim : Option (Nat × Nat) → Nat → Int
  | none => zero
  | some (r, _) => one r

def LiveLim : Option (Nat × Nat) → Mgr → Prop
  | none, _ => True
  | some (r, _), s => Live r s

theorem owns_lim : Owns oneLim LiveLim := by
  intro a s' h
  cases a with
  | none => exact fun p => ⟨Int.le_refl _, fun h => absurd rfl h⟩
  | some q => exact owns_one q.1 s' h

theorem Sim.noneLim (hs : Sane ba s) : Sim ba d s (Pure.pure none : M Mgr (Option (Nat × Nat))) (Pure.pure none) oneLim LiveLim := by
  unfold Sim
  show _ ∧ _
  refine ⟨?_, hs, .refl _, trivial⟩
  show Res.ok _ _ = Res.ok _ (xs (plus d zero) s)
  rw [plus_zero]

theorem Sim.someLim (hs : Sane ba s) {r : Nat} (hr : Live r s) (k : Nat) :
    Sim ba d s (Pure.pure (some (r, k)) : M Mgr (Option (Nat × Nat))) (newRef r >>= fun r => Pure.pure (some (r, k))) oneLim LiveLim := by
  unfold Sim
  show _ ∧ _
  refine ⟨?_, hs, .refl _, hr⟩
  unfold newRef
  show M.bind (M.bind (acquire r) _) _ _ = _
  unfold M.bind
  rw [acquire_xs]
  rfl

/-- A pair of handle and node count returned by a call, in scope for the rest. -/
theorem Sim.localLim {m mT : M Mgr (Option (Nat × Nat))} {k kT : Nat → Nat → M Mgr (Option (Nat × Nat))} (ht : TempOk d s)
    (h : Sim ba d s m mT oneLim LiveLim)
    (hk : ∀ r n s' d', Sane ba s' → TempOk d' s' → CellsExt s.cells s'.cells → Live r s' → Sim ba d' s' (k r n) (kT r n) oneLim LiveLim) :
    Sim ba d s (m >>= fun o => match o with | none => Pure.pure none | some (r, n) => k r n)
      (mT >>= fun o => match o with | none => Pure.pure none | some (r, n) => holding cfg r (kT r n)) oneLim LiveLim := by
  unfold Sim at h
  cases hm : m s with
  | ok a s1 =>
    simp only [hm] at h
    obtain ⟨h1, h2, h3, h4⟩ := h
    unfold Sim
    rw [M.bind_ok hm, M.bind_ok h1]
    cases a with
    | none =>
      show _ ∧ _
      refine ⟨?_, h2, h3, trivial⟩
      show Res.ok _ (xs (plus d zero) s1) = Res.ok _ (xs (plus d zero) s1)
      rfl
    | some q =>
      obtain ⟨r, n⟩ := q
      have h5 := Sim.hold (cfg := cfg) owns_lim (ht.ext h3) h4 (hk r n s1 _ h2 ((ht.ext h3).plus h4) h3 h4) _ rfl
      cases hk1 : k r n s1 <;> simp only [hk1] at h5 ⊢
      · exact ⟨h5.1, h5.2.1, h3.trans h5.2.2.1, h5.2.2.2⟩
      · exact ⟨h5.1, h5.2.1, h3.trans h5.2.2⟩
      all_goals exact h5
  | throw s1 =>
    simp only [hm] at h
    unfold Sim
    rw [show ∀ k : Option (Nat × Nat) → M Mgr (Option (Nat × Nat)), (m >>= k) s = .throw s1 from fun k => by show M.bind m k s = _; unfold M.bind; rw [hm]]
    refine ⟨?_, h.2⟩; show M.bind mT _ _ = _; unfold M.bind; rw [h.1]
  | assertFail =>
    simp only [hm] at h
    unfold Sim
    rw [show ∀ k : Option (Nat × Nat) → M Mgr (Option (Nat × Nat)), (m >>= k) s = .assertFail from fun k => by show M.bind m k s = _; unfold M.bind; rw [hm]]
    show M.bind mT _ _ = _; unfold M.bind; rw [h]
  | ub =>
    simp only [hm] at h
    unfold Sim
    rw [show ∀ k : Option (Nat × Nat) → M Mgr (Option (Nat × Nat)), (m >>= k) s = .ub from fun k => by show M.bind m k s = _; unfold M.bind; rw [hm]]
    show M.bind mT _ _ = _; unfold M.bind; rw [h]
  | hang =>
    simp only [hm] at h
    unfold Sim
    rw [show ∀ k : Option (Nat × Nat) → M Mgr (Option (Nat × Nat)), (m >>= k) s = .hang from fun k => by show M.bind m k s = _; unfold M.bind; rw [hm]]
    show M.bind mT _ _ = _; unfold M.bind; rw [h]

theorem andLimRec_sim {limit : Nat} : ∀ n (f g : Nat) (s : Mgr) (d : Nat → Int), Sane ba s → TempOk d s → Live f s → Live g s →
    Sim ba d s (andLimRec cfg limit n f g) (andLimRecT cfg limit n f g) oneLim LiveLim := by
  intro n
  induction n with
  | zero => intro f g s d _ _ _ _; exact .hang
  | succ n ih =>
    intro f g s d hs ht hf hg
    have rcall : ∀ {f g : Nat} {s : Mgr} {d : Nat → Int}, Sane ba s → TempOk d s → Live f s → Live g s →
        Sim ba d s (andLimRec cfg limit n f g) (LBDD.call2 cfg (andLimRecT cfg limit n) f g) oneLim LiveLim :=
      fun hs ht hf hg => .call2 owns_lim ht hf hg fun d ht => ih _ _ _ d hs ht hf hg
    unfold andLimRec andLimRecT
    refine .ite (fun _ => .bind (.nrNodes hs hf) fun k s1 h1 x1 _ => .ite (fun _ => .noneLim h1) fun _ => .someLim h1 (hf.ext x1) k) fun _ => ?_
    refine .ite (fun _ => rcall hs ht hg hf) fun _ => ?_
    refine .ite (fun _ => .bind (.nrNodes hs hg) fun k s1 h1 x1 _ => .someLim h1 (hg.ext x1) k) fun _ => ?_
    refine .ite (fun _ => .someLim hs hs.live0 0) fun _ => ?_
    refine .ite (fun _ => .bind (.nrNodes hs hf) fun k s1 h1 x1 _ => .someLim h1 (hf.ext x1) k) fun _ => ?_
    refine .ite (fun _ => .someLim hs hs.live0 0) fun _ => ?_
    refine .bind (.cacheLookup hs ht f g andTag) fun o s1 h1 x1 q1 => ?_
    cases o with
    | some m => exact .bind (.nrNodes h1 (q1 m rfl)) fun k s2 h2 x2 _ => .ite (fun _ => .someLim h2 ((q1 m rfl).ext x2) k) fun _ => .noneLim h2
    | none =>
      refine .bind (.varOf h1 f) fun fv s2 h2 x2 _ => .bind (.varOf h2 g) fun gv s3 h3 x3 _ => ?_
      have x3 := (x1.trans x2).trans x3
      refine .bind (.lowIf h3 _ (hf.ext x3)) fun f0 s4 h4 x4 l4 => .bind (.lowIf h4 _ (hg.ext (x3.trans x4))) fun g0 s5 h5 x5 l5 => ?_
      have x5' := (x3.trans x4).trans x5
      refine .localLim (ht.ext x5') (rcall h5 (ht.ext x5') (l4.ext x5) l5) fun r0 k0 s6 d6 h6 t6 x6 l6 => ?_
      have x6' := x5'.trans x6
      refine .ite (fun _ => .noneLim h6) fun _ => ?_
      refine .bind (.highIf h6 _ (hf.ext x6')) fun f1 s7 h7 x7 l7 => .bind (.highIf h7 _ (hg.ext (x6'.trans x7))) fun g1 s8 h8 x8 l8 => ?_
      have t8 := (t6.ext x7).ext x8
      refine .localLim t8 (rcall h8 t8 (l7.ext x8) l8) fun r1 k1 s9 d9 h9 t9 x9 l9 => .ite (fun _ => .noneLim h9) fun _ => ?_
      refine .bind (.uniqueFind h9 t9 _ (((l6.ext x7).ext x8).ext x9) l9) fun r s10 h10 x10 l10 => ?_
      exact .bind (.cacheInsert h10 _ _ _ l10) fun _ s11 h11 x11 _ => .someLim h11 (l10.ext x11) _

theorem andLimited_sim {f g limit : Nat} (hs : Sane ba s) (ht : TempOk d s) (hf : Live f s) (hg : Live g s) :
    Sim ba d s (andLimited cfg f g limit) (andLimitedT cfg f g limit) oneLim LiveLim := by
  unfold andLimited andLimitedT
  exact .get (andLimRec_sim _ f g s d hs ht hf hg)

end

end LBDD
