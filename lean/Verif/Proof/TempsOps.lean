import Verif.Proof.Temps
/-! The Boolean operations and the templates built from them, with and without temporary handles. -/
namespace LBDD

section
variable {α β : Type} {ba : Nat → Int} {cfg : Cfg} {d : Nat → Int} {s : Mgr}

/-- A function of two handles that mirrors its counterpart without temporaries. -/
def Sim2 (ba : Nat → Int) (op opT : Nat → Nat → M Mgr Nat) : Prop :=
  ∀ (f g : Nat) (s : Mgr) (d : Nat → Int), Sane ba s → TempOk d s → Live f s → Live g s → Sim ba d s (op f g) (opT f g) one Live

/-- A function of a list of handles. -/
def SimL (ba : Nat → Int) (op opT : List Nat → M Mgr Nat) : Prop :=
  ∀ (l : List Nat) (s : Mgr) (d : Nat → Int), Sane ba s → TempOk d s → (∀ p, p ∈ l → Live p s) → Sim ba d s (op l) (opT l) one Live

theorem Sim.call2 {op opT : Nat → Nat → M Mgr α} {e : α → Nat → Int} {Q : α → Mgr → Prop} {f g : Nat} (ho : Owns e Q) (ht : TempOk d s) (hf : Live f s)
    (hg : Live g s) (h : ∀ d, TempOk d s → Sim ba d s (op f g) (opT f g) e Q) : Sim ba d s (op f g) (call2 cfg opT f g) e Q := by
  unfold LBDD.call2
  exact .copy ho ht hf (.copy ho (ht.plus hf) hg (h _ ((ht.plus hf).plus hg)))

theorem Sim2.call {op opT : Nat → Nat → M Mgr Nat} (h : Sim2 ba op opT) (hs : Sane ba s) (ht : TempOk d s) {f g : Nat} (hf : Live f s) (hg : Live g s) :
    Sim ba d s (op f g) (LBDD.call2 cfg opT f g) one Live :=
  .call2 owns_one ht hf hg fun d ht => h f g s d hs ht hf hg

theorem Sim.localR {m mT : M Mgr Nat} {k kT : Nat → M Mgr β} {e : β → Nat → Int} {R : β → Mgr → Prop}
    (ho : Owns e R) (ht : TempOk d s) (h : Sim ba d s m mT one Live)
    (hk : ∀ r s' d', d' = plus d (one r) → Sane ba s' → TempOk d' s' → CellsExt s.cells s'.cells → Live r s' → Sim ba d' s' (k r) (kT r) e R) :
    Sim ba d s (m >>= k) (mT >>= fun r => holding cfg r (kT r)) e R :=
  .local ho ht (fun _ _ h => h) h fun r s' h1 h2 h3 => hk r s' _ rfl h1 ((ht.ext h2).plus h3) h2 h3

theorem Sim.meld {tag : Nat} {pick : Nat → Nat → Nat} {op opT : Nat → Nat → M Mgr Nat} (hr : Sim2 ba op opT) {f g : Nat} (hs : Sane ba s) (ht : TempOk d s)
    (hf : Live f s) (hg : Live g s) : Sim ba d s (meld cfg tag pick op f g) (meldWith cfg tag pick opT f g) one Live := by
  unfold LBDD.meld LBDD.meldWith
  refine .bind (.cacheLookup hs ht f g tag) fun o s1 h1 x1 q1 => ?_
  cases o with
  | some m => exact .ref h1 (q1 m rfl)
  | none =>
    refine .bind (.varOf h1 f) fun fv s2 h2 x2 _ => .bind (.varOf h2 g) fun gv s3 h3 x3 _ => ?_
    have x3 := (x1.trans x2).trans x3
    refine .bind (.lowIf h3 _ (hf.ext x3)) fun f0 s4 h4 x4 l4 => .bind (.lowIf h4 _ (hg.ext (x3.trans x4))) fun g0 s5 h5 x5 l5 => ?_
    have x5' := (x3.trans x4).trans x5
    refine .localR owns_one (ht.ext x5') (hr.call h5 (ht.ext x5') (l4.ext x5) l5) fun r0 s6 d6 _ h6 t6 x6 l6 => ?_
    have x6' := x5'.trans x6
    refine .bind (.highIf h6 _ (hf.ext x6')) fun f1 s7 h7 x7 l7 => .bind (.highIf h7 _ (hg.ext (x6'.trans x7))) fun g1 s8 h8 x8 l8 => ?_
    have t8 := (t6.ext x7).ext x8
    refine .localR owns_one t8 (hr.call h8 t8 (l7.ext x8) l8) fun r1 s9 d9 _ h9 t9 x9 l9 => ?_
    refine .bind (.uniqueFind h9 t9 _ (((l6.ext x7).ext x8).ext x9) l9) fun r s10 h10 x10 l10 => ?_
    exact .bind (.cacheInsert h10 _ _ _ l10) fun _ s11 h11 x11 _ => .ref h11 (l10.ext x11)

theorem andRec_sim : ∀ n, Sim2 ba (andRec cfg n) (andRecT cfg n) := by
  intro n
  induction n with
  | zero => intro f g s d _ _ _ _; exact .hang
  | succ n ih =>
    intro f g s d hs ht hf hg
    unfold andRec andRecT
    exact .ite (fun _ => .ref hs hf) fun _ => .ite (fun _ => ih.call hs ht hg hf) fun _ => .ite (fun _ => .ref hs hg) fun _ =>
      .ite (fun _ => .ref hs hs.live0) fun _ => .ite (fun _ => .ref hs hf) fun _ => .ite (fun _ => .ref hs hs.live0) fun _ => .meld ih hs ht hf hg

theorem orRec_sim : ∀ n, Sim2 ba (orRec cfg n) (orRecT cfg n) := by
  intro n
  induction n with
  | zero => intro f g s d _ _ _ _; exact .hang
  | succ n ih =>
    intro f g s d hs ht hf hg
    unfold orRec orRecT
    exact .ite (fun _ => .ref hs hf) fun _ => .ite (fun _ => ih.call hs ht hg hf) fun _ => .ite (fun _ => .ref hs hs.live1) fun _ =>
      .ite (fun _ => .ref hs hg) fun _ => .ite (fun _ => .ref hs hs.live1) fun _ => .ite (fun _ => .ref hs hf) fun _ => .meld ih hs ht hf hg

theorem andOp_sim : Sim2 ba (andOp cfg) (andOpT cfg) := fun f g s d hs ht hf hg => by
  unfold andOp andOpT
  exact .get (andRec_sim _ f g s d hs ht hf hg)

theorem orOp_sim : Sim2 ba (orOp cfg) (orOpT cfg) := fun f g s d hs ht hf hg => by
  unfold orOp orOpT
  exact .get (orRec_sim _ f g s d hs ht hf hg)

/-- Two temporaries in one expression. -/
theorem Sim.args2 {m1 m1T m2 m2T : M Mgr Nat} {k kT : Nat → Nat → M Mgr β} {e : β → Nat → Int} {R : β → Mgr → Prop} (ho : Owns e R) (hs : Sane ba s) (ht : TempOk d s)
    (h1 : ∀ s' d', Sane ba s' → TempOk d' s' → CellsExt s.cells s'.cells → Sim ba d' s' m1 m1T one Live)
    (h2 : ∀ s' d', Sane ba s' → TempOk d' s' → CellsExt s.cells s'.cells → Sim ba d' s' m2 m2T one Live)
    (hk : ∀ a b s' d', Sane ba s' → TempOk d' s' → CellsExt s.cells s'.cells → Live a s' → Live b s' → Sim ba d' s' (k a b) (kT a b) e R) :
    Sim ba d s (args2 cfg m1 m2 >>= fun p => k p.1 p.2) (args2T cfg m1T m2T kT) e R := by
  unfold LBDD.args2 args2T
  by_cases hr : cfg.rtl = true
  · rw [if_pos hr, if_pos hr]
    show Sim ba d s ((m2 >>= fun b => m1 >>= fun a => Pure.pure (a, b)) >>= fun p => k p.1 p.2) _ e R
    have e1 : ((m2 >>= fun b => m1 >>= fun a => (Pure.pure (a, b) : M Mgr (Nat × Nat))) >>= fun p => k p.1 p.2) =
        (m2 >>= fun b => m1 >>= fun a => k a b) := by
      funext t
      show M.bind (M.bind m2 fun b => M.bind m1 fun a => M.pure (a, b)) _ t = M.bind m2 (fun b => M.bind m1 fun a => k a b) t
      unfold M.bind
      cases m2 t with
      | ok b t1 => simp only; cases m1 t1 <;> rfl
      | _ => rfl
    rw [e1]
    refine .localR ho ht (h2 s d hs ht (.refl _)) fun b s1 d1 _ c1 t1 x1 l1 => .localR ho t1 (h1 s1 d1 c1 t1 x1) fun a s2 d2 _ c2 t2 x2 l2 => ?_
    exact hk a b s2 d2 c2 t2 (x1.trans x2) l2 (l1.ext x2)
  · rw [if_neg hr, if_neg hr]
    have e1 : ((m1 >>= fun a => m2 >>= fun b => (Pure.pure (a, b) : M Mgr (Nat × Nat))) >>= fun p => k p.1 p.2) =
        (m1 >>= fun a => m2 >>= fun b => k a b) := by
      funext t
      show M.bind (M.bind m1 fun a => M.bind m2 fun b => M.pure (a, b)) _ t = M.bind m1 (fun a => M.bind m2 fun b => k a b) t
      unfold M.bind
      cases m1 t with
      | ok b t1 => simp only; cases m2 t1 <;> rfl
      | _ => rfl
    show Sim ba d s ((m1 >>= fun a => m2 >>= fun b => Pure.pure (a, b)) >>= fun p => k p.1 p.2) _ e R
    rw [e1]
    refine .localR ho ht (h1 s d hs ht (.refl _)) fun a s1 d1 _ c1 t1 x1 l1 => .localR ho t1 (h2 s1 d1 c1 t1 x1) fun b s2 d2 _ c2 t2 x2 l2 => ?_
    exact hk a b s2 d2 c2 t2 (x1.trans x2) (l1.ext x2) l2

theorem negateRec_sim : ∀ n (p : Nat) (s : Mgr) (d : Nat → Int), Sane ba s → TempOk d s → Live p s →
    Sim ba d s (negateRec cfg n p) (negateRecT cfg n p) one Live := by
  intro n
  induction n with
  | zero => intro p s d _ _ _; exact .hang
  | succ n ih =>
    intro p s d hs ht hp
    unfold negateRec negateRecT
    refine .bind (.isBot hs p) fun b s1 h1 x1 _ => ?_
    refine .ite (fun _ => .ref h1 h1.live1) fun _ => .bind (.isTop h1 p) fun t s2 h2 x2 _ => ?_
    refine .ite (fun _ => .ref h2 h2.live0) fun _ => .get (.assert_bind ?_)
    have x := x1.trans x2
    refine .args2 owns_one h2 (ht.ext x) ?_ ?_ ?_
    · intro s3 d3 h3 t3 x3
      refine .bind (.lowOf h3 p) fun l s4 h4 x4 l4 => .copy owns_one (t3.ext x4) l4 (ih _ _ _ h4 ((t3.ext x4).plus l4) l4)
    · intro s3 d3 h3 t3 x3
      refine .bind (.highOf h3 p) fun l s4 h4 x4 l4 => .copy owns_one (t3.ext x4) l4 (ih _ _ _ h4 ((t3.ext x4).plus l4) l4)
    · intro a b s3 d3 h3 t3 x3 la lb
      have key := Sim.bind (Sim.uniqueFind (cfg := cfg) h3 t3 (s2.cells p).index la lb)
        (k := fun r => Pure.pure r) (kT := newRef) (e := one) (R := Live) fun r s4 h4 x4 l4 => .ref h4 l4
      have e1 : (uniqueFind cfg (s2.cells p).index a b >>= fun r => Pure.pure r) = uniqueFind cfg (s2.cells p).index a b := by
        funext t; show M.bind _ _ _ = _; unfold M.bind; cases uniqueFind cfg (s2.cells p).index a b t <;> rfl
      rw [e1] at key
      exact key

theorem negateOp_sim {p : Nat} (hs : Sane ba s) (ht : TempOk d s) (hp : Live p s) : Sim ba d s (negateOp cfg p) (negateOpT cfg p) one Live := by
  unfold negateOp negateOpT
  exact .get (negateRec_sim _ p s d hs ht hp)

theorem negateOp_call {p : Nat} (hs : Sane ba s) (ht : TempOk d s) (hp : Live p s) :
    Sim ba d s (negateOp cfg p) (withCopy cfg p (negateOpT cfg p)) one Live :=
  .copy owns_one ht hp (negateOp_sim hs (ht.plus hp) hp)

theorem xorRec_sim : ∀ n, Sim2 ba (xorRec cfg n) (xorRecT cfg n) := by
  intro n
  induction n with
  | zero => intro f g s d _ _ _ _; exact .hang
  | succ n ih =>
    intro f g s d hs ht hf hg
    unfold xorRec xorRecT
    exact .ite (fun _ => .ref hs hs.live0) fun _ => .ite (fun _ => ih.call hs ht hg hf) fun _ => .ite (fun _ => .ref hs hg) fun _ =>
      .ite (fun _ => .ref hs hf) fun _ => .ite (fun _ => negateOp_call hs ht hg) fun _ => .ite (fun _ => negateOp_call hs ht hf) fun _ => .meld ih hs ht hf hg

theorem xorOp_sim : Sim2 ba (xorOp cfg) (xorOpT cfg) := fun f g s d hs ht hf hg => by
  unfold xorOp xorOpT
  exact .get (xorRec_sim _ f g s d hs ht hf hg)

theorem Sim.call3 {op opT : Nat → Nat → Nat → M Mgr α} {e : α → Nat → Int} {Q : α → Mgr → Prop} {f g h : Nat} (ho : Owns e Q) (ht : TempOk d s) (hf : Live f s)
    (hg : Live g s) (hh : Live h s) (hk : ∀ d, TempOk d s → Sim ba d s (op f g h) (opT f g h) e Q) : Sim ba d s (op f g h) (call3 cfg opT f g h) e Q := by
  unfold LBDD.call3
  exact .copy ho ht hf (.copy ho (ht.plus hf) hg (.copy ho ((ht.plus hf).plus hg) hh (hk _ (((ht.plus hf).plus hg).plus hh))))

theorem iteRec_sim : ∀ n (f g h : Nat) (s : Mgr) (d : Nat → Int), Sane ba s → TempOk d s → Live f s → Live g s → Live h s →
    Sim ba d s (iteRec cfg n f g h) (iteRecT cfg n f g h) one Live := by
  intro n
  induction n with
  | zero => intro f g h s d _ _ _ _ _; exact .hang
  | succ n ih =>
    intro f g h s d hs ht hf hg hh
    unfold iteRec iteRecT
    refine .bind (.isTop hs f) fun b1 s1 h1 x1 _ => .ite (fun _ => .ref h1 (hg.ext x1)) fun _ => ?_
    refine .bind (.isBot h1 f) fun b2 s2 h2 x2 _ => .ite (fun _ => .ref h2 (hh.ext (x1.trans x2))) fun _ => ?_
    have x2 := x1.trans x2
    refine .bind (Q := Anything) (.ite (fun _ => .pure h2 trivial) fun _ => .isTop h2 g) fun b3 s3 h3 x3 _ => ?_
    have x3 := x2.trans x3
    refine .ite (fun _ => orOp_sim.call h3 (ht.ext x3) (hf.ext x3) (hh.ext x3)) fun _ => ?_
    refine .bind (Q := Anything) (.ite (fun _ => .pure h3 trivial) fun _ => .isBot h3 h) fun b4 s4 h4 x4 _ => ?_
    have x4 := x3.trans x4
    refine .ite (fun _ => andOp_sim.call h4 (ht.ext x4) (hf.ext x4) (hg.ext x4)) fun _ => .ite (fun _ => .ref h4 (hg.ext x4)) fun _ => ?_
    refine .bind (Q := Anything) (.bind (.isBot h4 g) fun b s5 h5 _ _ => .ite (fun _ => .isTop h5 h) fun _ => .pure h5 trivial) fun b5 s5 h5 x5 _ => ?_
    have x5 := x4.trans x5
    refine .ite (fun _ => xorOp_sim.call h5 (ht.ext x5) h5.live1 (hf.ext x5)) fun _ => ?_
    refine .bind (.cacheLookup h5 (ht.ext x5) f g _) fun o s6 h6 x6 q6 => ?_
    have x6 := x5.trans x6
    cases o with
    | some m => exact .ref h6 (q6 m rfl)
    | none =>
      refine .bind (.varOf h6 f) fun vf s7 h7 x7 _ => .bind (.varOrBack h7 g) fun vg s8 h8 x8 _ => .bind (.varOrBack h8 h) fun vh s9 h9 x9 _ => ?_
      have x9 := ((x6.trans x7).trans x8).trans x9
      refine .bind (.lowIf h9 _ (hf.ext x9)) fun f0 s10 h10 x10 l10 => .bind (.lowIf h10 _ (hg.ext (x9.trans x10))) fun g0 s11 h11 x11 l11 =>
        .bind (.lowIf h11 _ (hh.ext ((x9.trans x10).trans x11))) fun k0 s12 h12 x12 l12 => ?_
      have x12' := ((x9.trans x10).trans x11).trans x12
      have t12 := ht.ext x12'
      refine .localR owns_one t12 (.call3 owns_one t12 ((l10.ext x11).ext x12) (l11.ext x12) l12
        fun d ht => ih _ _ _ _ _ h12 ht ((l10.ext x11).ext x12) (l11.ext x12) l12) fun r0 s13 d13 _ h13 t13 x13 l13 => ?_
      have x13' := x12'.trans x13
      refine .bind (.highIf h13 _ (hf.ext x13')) fun f1 s14 h14 x14 l14 => .bind (.highIf h14 _ (hg.ext (x13'.trans x14))) fun g1 s15 h15 x15 l15 =>
        .bind (.highIf h15 _ (hh.ext ((x13'.trans x14).trans x15))) fun k1 s16 h16 x16 l16 => ?_
      have t16 := ((t13.ext x14).ext x15).ext x16
      refine .localR owns_one t16 (.call3 owns_one t16 ((l14.ext x15).ext x16) (l15.ext x16) l16
        fun d ht => ih _ _ _ _ _ h16 ht ((l14.ext x15).ext x16) (l15.ext x16) l16) fun r1 s17 d17 _ h17 t17 x17 l17 => ?_
      refine .bind (.uniqueFind h17 t17 _ ((((l13.ext x14).ext x15).ext x16).ext x17) l17) fun r s18 h18 x18 l18 => ?_
      exact .bind (.cacheInsert h18 _ _ _ l18) fun _ s19 h19 x19 _ => .ref h19 (l18.ext x19)

theorem iteOp_sim {f g h : Nat} (hs : Sane ba s) (ht : TempOk d s) (hf : Live f s) (hg : Live g s) (hh : Live h s) :
    Sim ba d s (iteOp cfg f g h) (iteOpT cfg f g h) one Live := by
  unfold iteOp iteOpT
  exact .get (iteRec_sim _ f g h s d hs ht hf hg hh)

end

end LBDD
