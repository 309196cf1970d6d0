import Verif.Model.Build
import Verif.Proof.Query
import Verif.Proof.Ite
/-! Composite operations: correctness and independence of addresses, keys and evaluation order. -/
namespace LBDD

/-- Node `p` denotes the Boolean function `F`. -/
def Rep (c : Nat → Cell) (p : Nat) (F : BFun) : Prop := ∃ t, Repr c p t ∧ ∀ x, t.eval x = F x

theorem Rep.ext {c c' : Nat → Cell} (h : CellsExt c c') {p : Nat} {F : BFun} (r : Rep c p F) : Rep c' p F := by
  obtain ⟨t, a, b⟩ := r; exact ⟨t, a.ext h, b⟩

/-- `u` is an inner subtree of the tree. -/
def Tree.Sub : Tree → Tree → Prop
  | .bot, _ => False
  | .top, _ => False
  | .node v l h, u => u = .node v l h ∨ l.Sub u ∨ h.Sub u

/-- The inner nodes (as trees) of the canonical BDD of `F`. -/
def SubsOf (F : BFun) (u : Tree) : Prop := ∃ t : Tree, t.Ordered ∧ t.Reduced ∧ (∀ x, t.eval x = F x) ∧ t.Sub u

/-- `u` is the tree of some existing inner node. -/
def LiveT (s : Mgr) (u : Tree) : Prop := ∃ p, 2 ≤ p ∧ Repr s.cells p u

/-- The nodes of `s'` are those of `s` and those in `N`. -/
def Adds (s s' : Mgr) (N : Tree → Prop) : Prop := ∀ u, LiveT s' u ↔ LiveT s u ∨ N u

theorem Adds.refl {s : Mgr} : Adds s s (fun _ => False) := fun u => by simp
theorem Adds.trans {s s1 s2 : Mgr} {N1 N2 : Tree → Prop} (h1 : Adds s s1 N1) (h2 : Adds s1 s2 N2) : Adds s s2 (fun u => N1 u ∨ N2 u) := by
  intro u; rw [h2 u, h1 u, or_assoc]
theorem Adds.congr {s s' : Mgr} {N1 N2 : Tree → Prop} (h1 : Adds s s' N1) (h : ∀ u, N1 u ↔ N2 u) : Adds s s' N2 := by
  intro u; rw [h1 u, h u]

theorem Repr.sub_iff {c : Nat → Cell} {p : Nat} {t : Tree} (h : Repr c p t) (u : Tree) :
    t.Sub u ↔ ∃ q, 2 ≤ q ∧ Reaches c p q ∧ Repr c q u := by
  constructor
  · induction h with
    | bot => intro h; exact h.elim
    | top => intro h; exact h.elim
    | @node p tl th h2 hl hx h3 h4 ihl ihh =>
      rintro (h | h | h)
      · exact ⟨p, h2, .refl _, h ▸ .node h2 hl hx h3 h4⟩
      · obtain ⟨q, a, b, d⟩ := ihl h; exact ⟨q, a, .lo h2 hl b, d⟩
      · obtain ⟨q, a, b, d⟩ := ihh h; exact ⟨q, a, .hi h2 hl b, d⟩
  · rintro ⟨q, q2, hr, hu⟩
    induction hr generalizing t with
    | refl =>
      have e := h.fn hu
      obtain ⟨_, _, rfl, _⟩ := h.inv q2; exact Or.inl e.symm
    | lo h2 _ _ ih =>
      obtain ⟨_, _, rfl, _, _, h3, _⟩ := h.inv h2
      exact Or.inr (Or.inl (ih h3 q2 hu))
    | hi h2 _ _ ih =>
      obtain ⟨_, _, rfl, _, _, _, h3⟩ := h.inv h2
      exact Or.inr (Or.inr (ih h3 q2 hu))

section
variable {cfg : Cfg} {md : Md} {refs : Nat → Nat} {s : Mgr}

theorem New.adds {refs' : Nat → Nat} {s' : Mgr} (hi : Inv cfg md refs s) (hi' : Inv cfg md refs' s') (hx : CellsExt s.cells s'.cells) {r : Nat}
    (h : New s s' r) {tr : Tree} (hr : Repr s'.cells r tr) : Adds s s' (fun u => tr.Sub u) := by
  intro u
  show _ ↔ _ ∨ tr.Sub u
  rw [hr.sub_iff]
  constructor
  · rintro ⟨p, p2, hp⟩
    rcases h p (hi'.live_of hp) with hl | hl
    · obtain ⟨t, ht⟩ := hi.repr hl
      rw [(ht.ext hx).fn hp] at ht
      exact Or.inl ⟨p, p2, ht⟩
    · exact Or.inr ⟨p, p2, hl, hp⟩
  · rintro (⟨p, p2, hp⟩ | ⟨p, p2, _, hp⟩)
    · exact ⟨p, p2, hp.ext hx⟩
    · exact ⟨p, p2, hp⟩

theorem subsOf_iff (hi : Inv cfg md refs s) (ho : md.ordered) {r : Nat} {tr : Tree} (hr : Repr s.cells r tr) {F : BFun}
    (hF : ∀ x, tr.eval x = F x) (u : Tree) : tr.Sub u ↔ SubsOf F u := by
  constructor
  · intro h; exact ⟨tr, hi.ord ho _ _ hr, hi.reduced hr, hF, h⟩
  · rintro ⟨t, a, b, e, h⟩
    rw [Tree.eq_of_eval (hi.ord ho _ _ hr) a (hi.reduced hr) b (fun x => (hF x).trans (e x).symm)]
    exact h
end

/-- Postcondition: result `Q`, and in ordered managers exactly the nodes `N` are added. -/
def Outc {α : Type} (md : Md) (Q : α → (Nat → Cell) → Prop) (N : Tree → Prop) (s : Mgr) (r : α) (s' : Mgr) : Prop :=
  Q r s'.cells ∧ (md.ordered → Adds s s' N)

/-- `m` started on inputs satisfying `H` returns a result satisfying `Q` and adds a set of nodes that
does not depend on the environment `cfg`, on the state or on node positions. -/
def DetE {ι α : Type} (P : Md → Prop) (H : (Nat → Cell) → ι → Prop) (m : Cfg → ι → M Mgr α) (Q : α → (Nat → Cell) → Prop) : Prop :=
  ∃ N : Tree → Prop, ∀ (cfg : Cfg) (md : Md) (refs : Nat → Nat) (s : Mgr) (i : ι), P md → Inv cfg md refs s → H s.cells i →
    Spec cfg md refs (m cfg i) s (Outc md Q N s)

/-- A property of the heap that survives growth. -/
def Pers {ι : Type} (H : (Nat → Cell) → ι → Prop) : Prop := ∀ c c' i, CellsExt c c' → H c i → H c' i

section
variable {ι κ α β : Type} {P : Md → Prop}

theorem DetE.bind {H : (Nat → Cell) → ι → Prop} {m : Cfg → ι → M Mgr α} {Q : α → (Nat → Cell) → Prop} {k : Cfg → α → ι → M Mgr β}
    {R : β → (Nat → Cell) → Prop} (hH : Pers H) (h1 : DetE P H m Q)
    (h2 : DetE P (fun c (p : α × ι) => Q p.1 c ∧ H c p.2) (fun cfg p => k cfg p.1 p.2) R) :
    DetE P H (fun cfg i => m cfg i >>= fun a => k cfg a i) R := by
  obtain ⟨N1, h1⟩ := h1
  obtain ⟨N2, h2⟩ := h2
  refine ⟨fun u => N1 u ∨ N2 u, ?_⟩
  intro cfg md refs s i hP hi hh
  refine Spec.bind (h1 cfg md refs s i hP hi hh) ?_
  rintro a s1 x1 hi1 ⟨q1, n1⟩
  refine (h2 cfg md refs s1 (a, i) hP hi1 ⟨q1, hH _ _ _ x1.cells hh⟩).mono ?_
  rintro b s2 _ _ ⟨q2, n2⟩
  exact ⟨q2, fun ho => (n1 ho).trans (n2 ho)⟩

theorem DetE.map {H : (Nat → Cell) → ι → Prop} {H' : (Nat → Cell) → κ → Prop} {m : Cfg → ι → M Mgr α} {Q Q' : α → (Nat → Cell) → Prop}
    (h : DetE P H m Q) (f : κ → ι) (hf : ∀ c i, H' c i → H c (f i)) (hq : ∀ a c, Q a c → Q' a c) :
    DetE P H' (fun cfg i => m cfg (f i)) Q' := by
  obtain ⟨N, h⟩ := h
  exact ⟨N, fun cfg md refs s i hP hi hh => (h cfg md refs s (f i) hP hi (hf _ _ hh)).mono
    (fun a s' _ _ q => ⟨hq _ _ q.1, q.2⟩)⟩

/-- Same program text on the inputs that matter. -/
theorem DetE.prog {H : (Nat → Cell) → ι → Prop} {m m' : Cfg → ι → M Mgr α} {Q : α → (Nat → Cell) → Prop}
    (h : DetE P H m Q) (e : ∀ cfg c i, H c i → m' cfg i = m cfg i) : DetE P H m' Q := by
  obtain ⟨N, h⟩ := h
  exact ⟨N, fun cfg md refs s i hP hi hh => by rw [e cfg _ i hh]; exact h cfg md refs s i hP hi hh⟩

theorem DetE.pure {H : (Nat → Cell) → ι → Prop} {f : ι → α} {Q : α → (Nat → Cell) → Prop}
    (h : ∀ c i, H c i → Q (f i) c) : DetE P H (fun _ i => Pure.pure (f i)) Q :=
  ⟨fun _ => False, fun _ _ _ _ i _ hi hh => Spec.pure hi ⟨h _ i hh, fun _ => .refl⟩⟩

theorem DetE.assert {H : (Nat → Cell) → ι → Prop} {m : Cfg → ι → M Mgr α} {Q : α → (Nat → Cell) → Prop} {b : ι → Bool}
    (h : DetE P H m Q) (hb : ∀ c i, H c i → b i = true) : DetE P H (fun cfg i => M.assert cfg.ndebug (b i) >>= fun _ => m cfg i) Q := by
  obtain ⟨N, h⟩ := h
  exact ⟨N, fun cfg md refs s i hP hi hh => Spec.assert_bind (hb _ _ hh) (h cfg md refs s i hP hi hh)⟩

theorem DetE.args2 {H : (Nat → Cell) → ι → Prop} {m1 m2 : Cfg → ι → M Mgr Nat} {Q1 Q2 : Nat → (Nat → Cell) → Prop}
    (hH : Pers H) (p1 : ∀ r c c', CellsExt c c' → Q1 r c → Q1 r c') (p2 : ∀ r c c', CellsExt c c' → Q2 r c → Q2 r c')
    (h1 : DetE P H m1 Q1) (h2 : DetE P H m2 Q2) :
    DetE P H (fun cfg i => LBDD.args2 cfg (m1 cfg i) (m2 cfg i)) (fun r c => Q1 r.1 c ∧ Q2 r.2 c) := by
  obtain ⟨N1, h1⟩ := h1
  obtain ⟨N2, h2⟩ := h2
  refine ⟨fun u => N1 u ∨ N2 u, ?_⟩
  intro cfg md refs s i hP hi hh
  show Spec cfg md refs (LBDD.args2 cfg (m1 cfg i) (m2 cfg i)) s _
  unfold LBDD.args2
  split
  · refine Spec.bind (h2 cfg md refs s i hP hi hh) ?_
    rintro b s1 x1 hi1 ⟨q1, n1⟩
    refine Spec.bind (h1 cfg md refs s1 i hP hi1 (hH _ _ _ x1.cells hh)) ?_
    rintro a s2 x2 hi2 ⟨q2, n2⟩
    exact Spec.pure hi2 ⟨⟨q2, p2 _ _ _ x2.cells q1⟩, fun ho => ((n1 ho).trans (n2 ho)).congr (fun u => or_comm)⟩
  · refine Spec.bind (h1 cfg md refs s i hP hi hh) ?_
    rintro b s1 x1 hi1 ⟨q1, n1⟩
    refine Spec.bind (h2 cfg md refs s1 i hP hi1 (hH _ _ _ x1.cells hh)) ?_
    rintro a s2 x2 hi2 ⟨q2, n2⟩
    exact Spec.pure hi2 ⟨⟨p1 _ _ _ x2.cells q1, q2⟩, fun ho => (n1 ho).trans (n2 ho)⟩

theorem DetE.args3 {H : (Nat → Cell) → ι → Prop} {m1 m2 m3 : Cfg → ι → M Mgr Nat} {Q1 Q2 Q3 : Nat → (Nat → Cell) → Prop}
    (hH : Pers H) (p1 : ∀ r c c', CellsExt c c' → Q1 r c → Q1 r c') (p2 : ∀ r c c', CellsExt c c' → Q2 r c → Q2 r c')
    (p3 : ∀ r c c', CellsExt c c' → Q3 r c → Q3 r c')
    (h1 : DetE P H m1 Q1) (h2 : DetE P H m2 Q2) (h3 : DetE P H m3 Q3) :
    DetE P H (fun cfg i => LBDD.args3 cfg (m1 cfg i) (m2 cfg i) (m3 cfg i)) (fun r c => Q1 r.1 c ∧ Q2 r.2.1 c ∧ Q3 r.2.2 c) := by
  obtain ⟨N1, h1⟩ := h1
  obtain ⟨N2, h2⟩ := h2
  obtain ⟨N3, h3⟩ := h3
  refine ⟨fun u => (N1 u ∨ N2 u) ∨ N3 u, ?_⟩
  intro cfg md refs s i hP hi hh
  show Spec cfg md refs (LBDD.args3 cfg (m1 cfg i) (m2 cfg i) (m3 cfg i)) s _
  unfold LBDD.args3
  split
  · refine Spec.bind (h3 cfg md refs s i hP hi hh) ?_
    rintro b s1 x1 hi1 ⟨q1, n1⟩
    refine Spec.bind (h2 cfg md refs s1 i hP hi1 (hH _ _ _ x1.cells hh)) ?_
    rintro a s2 x2 hi2 ⟨q2, n2⟩
    refine Spec.bind (h1 cfg md refs s2 i hP hi2 (hH _ _ _ (x1.cells.trans x2.cells) hh)) ?_
    rintro d s3 x3 hi3 ⟨q3, n3⟩
    exact Spec.pure hi3 ⟨⟨q3, p2 _ _ _ x3.cells q2, p3 _ _ _ (x2.cells.trans x3.cells) q1⟩,
      fun ho => (((n1 ho).trans (n2 ho)).trans (n3 ho)).congr (fun u => by
        constructor
        · rintro ((h | h) | h); exact Or.inr h; exact Or.inl (Or.inr h); exact Or.inl (Or.inl h)
        · rintro ((h | h) | h); exact Or.inr h; exact Or.inl (Or.inr h); exact Or.inl (Or.inl h))⟩
  · refine Spec.bind (h1 cfg md refs s i hP hi hh) ?_
    rintro b s1 x1 hi1 ⟨q1, n1⟩
    refine Spec.bind (h2 cfg md refs s1 i hP hi1 (hH _ _ _ x1.cells hh)) ?_
    rintro a s2 x2 hi2 ⟨q2, n2⟩
    refine Spec.bind (h3 cfg md refs s2 i hP hi2 (hH _ _ _ (x1.cells.trans x2.cells) hh)) ?_
    rintro d s3 x3 hi3 ⟨q3, n3⟩
    exact Spec.pure hi3 ⟨⟨p1 _ _ _ (x2.cells.trans x3.cells) q1, p2 _ _ _ x3.cells q2, q3⟩,
      fun ho => ((n1 ho).trans (n2 ho)).trans (n3 ho)⟩
end

/-! ### the primitive operations -/

/-- Histories without exclusive-or: the shared tag stands for disjunction. -/
structure OrMode (md : Md) : Prop where
  sem : md.sem = fun a b c => c = (a || b)
  rel : md.rel = fun f g r => r = tOr f g
  irel : md.irel = fun f g h r => r = tIte f g h
/-- Histories without disjunctions: the shared tag stands for exclusive or. -/
structure XorMode (md : Md) : Prop where
  sem : md.sem = fun a b c => c = (a ^^ b)
  rel : md.rel = fun f g r => r = tXor f g
  unord : ¬ md.ordered

theorem OrMode.semIte {md : Md} (h : OrMode md) : SemIte md where
  symm := by rw [h.sem]; intro a b c; cases a <;> cases b <;> simp
  same := by rw [h.sem]; intro a; simp
  top := by rw [h.sem]; intro a; simp
  bot := by rw [h.sem]; intro a; simp
  exact0 := by rw [h.sem]; intro b c; simp
  exact1 := by rw [h.sem]; intro c; simp
  rsymm := by rw [h.rel]; intro a b c e; rw [e, tOr_comm]
  rsame := by rw [h.rel]; intro a; exact (tOr_same a).symm
  rtop := by rw [h.rel]; intro a; exact (tOr_top a).symm
  rbot := by rw [h.rel]; intro a; exact (tOr_bot a).symm
  rstep := by rw [h.rel]; exact tOr_step
  ite := by rw [h.rel, h.irel]; exact relIte_tIte

theorem XorMode.semXor {md : Md} (h : XorMode md) : SemXor md where
  symm := by rw [h.sem]; intro a b c h; subst h; exact Bool.xor_comm _ _
  same := by rw [h.sem]; intro a; simp
  top := by rw [h.sem]; intro a; simp
  bot := by rw [h.sem]; intro a; simp
  rsymm := by rw [h.rel]; intro a b c e; rw [e, tXor_comm]
  rsame := by rw [h.rel]; intro a; exact (tXor_same a).symm
  rtop := by rw [h.rel]; intro a; exact (tXor_top a).symm
  rbot := by rw [h.rel]; intro a; exact (tXor_bot a).symm
  rstep := by rw [h.rel]; exact tXor_step

/-- Pair of nodes denoting `F` and `G`. -/
def Rep2 (F G : BFun) (c : Nat → Cell) (p : Nat × Nat) : Prop := Rep c p.1 F ∧ Rep c p.2 G

theorem Rep.pers {F : BFun} : ∀ r c c', CellsExt c c' → Rep c r F → Rep c' r F := fun _ _ _ h r => r.ext h
theorem Rep2.pers {F G : BFun} : Pers (Rep2 F G) := fun _ _ _ h r => ⟨r.1.ext h, r.2.ext h⟩

theorem outc_of {cfg : Cfg} {md : Md} {refs : Nat → Nat} {s s' : Mgr} (hi : Inv cfg md refs s) (hx : Ext s s') (hi' : Inv cfg md refs s')
    {r : Nat} {tr : Tree} {F : BFun} (hr : Repr s'.cells r tr) (hF : ∀ x, tr.eval x = F x) (hn : New s s' r) :
    Outc md (fun r c => Rep c r F) (SubsOf F) s r s' :=
  ⟨⟨tr, hr, hF⟩, fun ho => (hn.adds hi hi' hx.cells hr).congr (subsOf_iff hi' ho hr hF)⟩

theorem det_and (P : Md → Prop) (F G : BFun) :
    DetE P (Rep2 F G) (fun cfg p => andOp cfg p.1 p.2) (fun r c => Rep c r (fun x => F x && G x)) := by
  refine ⟨SubsOf (fun x => F x && G x), ?_⟩
  rintro cfg md refs s ⟨a, b⟩ _ hi ⟨⟨ta, ha, ea⟩, ⟨tb, hb, eb⟩⟩
  refine (andOp_ok hi ha hb).mono ?_
  rintro r s' x hi' ⟨tr, h1, h2, _, h4⟩
  exact outc_of hi x hi' h1 (fun x => by rw [h2 x, ea, eb]) h4

theorem det_or (F G : BFun) :
    DetE OrMode (Rep2 F G) (fun cfg p => orOp cfg p.1 p.2) (fun r c => Rep c r (fun x => F x || G x)) := by
  refine ⟨SubsOf (fun x => F x || G x), ?_⟩
  rintro cfg md refs s ⟨a, b⟩ hP hi ⟨⟨ta, ha, ea⟩, ⟨tb, hb, eb⟩⟩
  have hs : SemOr md := hP.semIte.toSemOr
  refine (orOp_ok hs hi ha hb).mono ?_
  rintro r s' x hi' ⟨tr, h1, h2, _, h4⟩
  rw [hP.sem] at h2
  exact outc_of hi x hi' h1 (fun x => by rw [h2 x, ea, eb]) h4

theorem det_xor (F G : BFun) :
    DetE XorMode (Rep2 F G) (fun cfg p => xorOp cfg p.1 p.2) (fun r c => Rep c r (fun x => F x ^^ G x)) := by
  refine ⟨SubsOf (fun x => F x ^^ G x), ?_⟩
  rintro cfg md refs s ⟨a, b⟩ hP hi ⟨⟨ta, ha, ea⟩, ⟨tb, hb, eb⟩⟩
  have hs : SemXor md := hP.semXor
  refine (xorOp_ok hs hP.unord hi ha hb).mono ?_
  rintro r s' x hi' ⟨tr, h1, h2, _, h4⟩
  rw [hP.sem] at h2
  exact outc_of hi x hi' h1 (fun x => by rw [h2 x, ea, eb]) h4

theorem det_neg (P : Md → Prop) (F : BFun) :
    DetE P (fun c p => Rep c p F) (fun cfg p => negateOp cfg p) (fun r c => Rep c r (fun x => !F x)) := by
  refine ⟨SubsOf (fun x => !F x), ?_⟩
  rintro cfg md refs s a _ hi ⟨ta, ha, ea⟩
  refine (negateOp_tree hi ha).mono ?_
  rintro r s' x hi' ⟨h1, h4⟩
  exact outc_of hi x hi' h1 (fun x => by rw [negTree_eval, ea]) h4

/-! ### lists of nodes -/

/-- The nodes `l` denote the functions `Fs`. -/
def Reps (c : Nat → Cell) : List Nat → List BFun → Prop
  | [], [] => True
  | p :: l, F :: Fs => Rep c p F ∧ Reps c l Fs
  | _, _ => False

theorem Reps.length {c : Nat → Cell} : ∀ {l : List Nat} {Fs : List BFun}, Reps c l Fs → l.length = Fs.length
  | [], [], _ => rfl
  | _ :: _, _ :: _, h => by simp [Reps.length h.2]
  | [], _ :: _, h => h.elim
  | _ :: _, [], h => h.elim

theorem Reps.ext {c c' : Nat → Cell} (hx : CellsExt c c') : ∀ {l : List Nat} {Fs : List BFun}, Reps c l Fs → Reps c' l Fs
  | [], [], _ => trivial
  | _ :: _, _ :: _, h => ⟨h.1.ext hx, Reps.ext hx h.2⟩
  | [], _ :: _, h => h.elim
  | _ :: _, [], h => h.elim

theorem Reps.pers {Fs : List BFun} : Pers (fun c l => Reps c l Fs) := fun _ _ _ h r => r.ext h

theorem Reps.take {c : Nat → Cell} : ∀ {l : List Nat} {Fs : List BFun} (n : Nat), Reps c l Fs → Reps c (l.take n) (Fs.take n)
  | [], [], _, _ => by simp [Reps]
  | _ :: _, _ :: _, 0, _ => trivial
  | _ :: _, _ :: _, n + 1, h => ⟨h.1, Reps.take n h.2⟩
  | [], _ :: _, _, h => h.elim
  | _ :: _, [], _, h => h.elim

theorem Reps.drop {c : Nat → Cell} : ∀ {l : List Nat} {Fs : List BFun} (n : Nat), Reps c l Fs → Reps c (l.drop n) (Fs.drop n)
  | [], [], _, _ => by simp [Reps]
  | _ :: _, _ :: _, 0, h => h
  | _ :: _, _ :: _, n + 1, h => Reps.drop n h.2
  | [], _ :: _, _, h => h.elim
  | _ :: _, [], _, h => h.elim

theorem Reps.append {c : Nat → Cell} : ∀ {l l' : List Nat} {Fs Fs' : List BFun}, Reps c l Fs → Reps c l' Fs' → Reps c (l ++ l') (Fs ++ Fs')
  | [], _, [], _, _, h' => h'
  | _ :: _, _, _ :: _, _, h, h' => ⟨h.1, Reps.append h.2 h'⟩
  | [], _, _ :: _, _, h, _ => h.elim
  | _ :: _, _, [], _, h, _ => h.elim

theorem Reps.reverse {c : Nat → Cell} : ∀ {l : List Nat} {Fs : List BFun}, Reps c l Fs → Reps c l.reverse Fs.reverse
  | [], [], _ => trivial
  | p :: l, F :: Fs, h => by
    rw [List.reverse_cons, List.reverse_cons]
    exact (Reps.reverse h.2).append ⟨h.1, trivial⟩
  | [], _ :: _, h => h.elim
  | _ :: _, [], h => h.elim

end LBDD
