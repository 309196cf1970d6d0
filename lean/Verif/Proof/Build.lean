import Verif.Proof.Det
/-! The range and cardinality functions. -/
namespace LBDD

theorem Reps.get {c : Nat → Cell} : ∀ {l : List Nat} {Fs : List BFun}, Reps c l Fs → ∀ (i : Nat) (F : BFun), Fs[i]? = some F → Rep c (l.getD i 0) F
  | [], [], _, i, F, h => by simp at h
  | p :: l, G :: Fs, h, 0, F, e => by
    simp only [List.getElem?_cons_zero, Option.some.injEq] at e
    subst e; exact h.1
  | p :: l, G :: Fs, h, i + 1, F, e => by
    simp only [List.getElem?_cons_succ] at e
    simpa using Reps.get h.2 i F e
  | [], _ :: _, h, _, _, _ => h.elim
  | _ :: _, [], h, _, _, _ => h.elim

section
variable {ι : Type} {P : Md → Prop}

theorem DetE.seq2 {H : (Nat → Cell) → ι → Prop} (hH : Pers H) {m1 m2 : Cfg → ι → M Mgr Nat} {op : Cfg → Nat → Nat → M Mgr Nat}
    {F G : BFun} {R : Nat → (Nat → Cell) → Prop} (h1 : DetE P H m1 (fun r c => Rep c r F)) (h2 : DetE P H m2 (fun r c => Rep c r G))
    (h : DetE P (Rep2 F G) (fun cfg p => op cfg p.1 p.2) R) :
    DetE P H (fun cfg i => m1 cfg i >>= fun a => m2 cfg i >>= fun b => op cfg a b) R := by
  refine DetE.bind (k := fun cfg a i => m2 cfg i >>= fun b => op cfg a b) hH h1 ?_
  refine DetE.bind (ι := Nat × ι) (m := fun cfg p => m2 cfg p.2) (k := fun cfg b p => op cfg p.1 b)
    (Q := fun r c => Rep c r G) ?_ (h2.map (fun p : Nat × ι => p.2) (fun _ _ h => h.2) (fun _ _ h => h)) ?_
  · rintro c c' ⟨a, i⟩ hx ⟨ha, hi⟩; exact ⟨ha.ext hx, hH _ _ _ hx hi⟩
  · exact h.map (fun p : Nat × Nat × ι => (p.2.1, p.1)) (fun _ _ h => ⟨h.2.1, h.1⟩) (fun _ _ h => h)

theorem DetE.op {H : (Nat → Cell) → ι → Prop} {op : Cfg → Nat → Nat → M Mgr Nat}
    {F G : BFun} {R : Nat → (Nat → Cell) → Prop} (h : DetE P (Rep2 F G) (fun cfg p => op cfg p.1 p.2) R) (f g : ι → Nat)
    (h1 : ∀ c i, H c i → Rep c (f i) F) (h2 : ∀ c i, H c i → Rep c (g i) G) :
    DetE P H (fun cfg i => op cfg (f i) (g i)) R :=
  h.map (fun i => (f i, g i)) (fun c i hh => ⟨h1 c i hh, h2 c i hh⟩) (fun _ _ h => h)

theorem DetE.neg {H : (Nat → Cell) → ι → Prop} {F : BFun} (f : ι → Nat) (h1 : ∀ c i, H c i → Rep c (f i) F) :
    DetE P H (fun cfg i => negateOp cfg (f i)) (fun r c => Rep c r (fun x => !F x)) :=
  (det_neg P F).map f h1 (fun _ _ h => h)

/-- Arguments evaluated in either order, then a binary operation. -/
theorem DetE.args2op {H : (Nat → Cell) → ι → Prop} (hH : Pers H) {m1 m2 : Cfg → ι → M Mgr Nat} {op : Cfg → Nat → Nat → M Mgr Nat}
    {F G : BFun} {R : Nat → (Nat → Cell) → Prop} (h1 : DetE P H m1 (fun r c => Rep c r F)) (h2 : DetE P H m2 (fun r c => Rep c r G))
    (h : DetE P (Rep2 F G) (fun cfg p => op cfg p.1 p.2) R) :
    DetE P H (fun cfg i => LBDD.args2 cfg (m1 cfg i) (m2 cfg i) >>= fun r => op cfg r.1 r.2) R := by
  refine DetE.bind (k := fun cfg (r : Nat × Nat) _ => op cfg r.1 r.2) hH (DetE.args2 hH Rep.pers Rep.pers h1 h2) ?_
  exact h.map (fun p : (Nat × Nat) × ι => p.1) (fun _ _ h => h.1) (fun _ _ h => h)

end

theorem Rep.congr {c : Nat → Cell} {p : Nat} {F G : BFun} (h : Rep c p F) (e : ∀ x, F x = G x) : Rep c p G := by
  obtain ⟨t, a, b⟩ := h; exact ⟨t, a, fun x => (b x).trans (e x)⟩

theorem DetE.fn {ι : Type} {P : Md → Prop} {H : (Nat → Cell) → ι → Prop} {m : Cfg → ι → M Mgr Nat} {F G : BFun}
    (h : DetE P H m (fun r c => Rep c r F)) (e : ∀ x, F x = G x) : DetE P H m (fun r c => Rep c r G) := by
  obtain ⟨N, h⟩ := h
  exact ⟨N, fun cfg md refs s i hP hi hh => (h cfg md refs s i hP hi hh).mono (fun a s' _ _ q => ⟨q.1.congr e, q.2⟩)⟩

/-- A binary operation with an associative list version `V`. -/
structure ListOp (P : Md → Prop) (op : Cfg → Nat → Nat → M Mgr Nat) (G : Bool → Bool → Bool) (V : List Bool → Bool) : Prop where
  det : ∀ F1 F2, DetE P (Rep2 F1 F2) (fun cfg p => op cfg p.1 p.2) (fun r c => Rep c r (fun x => G (F1 x) (F2 x)))
  one : ∀ a, V [a] = a
  app : ∀ l l', V (l ++ l') = G (V l) (V l')

theorem listOp_and (P : Md → Prop) : ListOp P andOp (· && ·) (fun l => l.all id) :=
  ⟨det_and P, by simp, by simp⟩
theorem listOp_or : ListOp OrMode orOp (· || ·) (fun l => l.any id) :=
  ⟨det_or, by simp, by simp⟩
theorem listOp_xor : ListOp XorMode xorOp (· ^^ ·) (fun l => l.foldr (· ^^ ·) false) :=
  ⟨det_xor, by simp, by
    intro l l'
    induction l with
    | nil => simp
    | cons a l ih => simp only [List.cons_append, List.foldr_cons, ih, Bool.xor_assoc]⟩

/-- Values of a list of functions. -/
def vals (Fs : List BFun) (x : Assign) : List Bool := Fs.map (fun F => F x)

section
variable {P : Md → Prop} {op : Cfg → Nat → Nat → M Mgr Nat} {G : Bool → Bool → Bool} {V : List Bool → Bool}

theorem rangeRec_det (h : ListOp P op G V) : ∀ (n : Nat) (Fs : List BFun), 2 ≤ Fs.length → Fs.length ≤ n →
    DetE P (fun c l => Reps c l Fs) (fun cfg l => rangeRec cfg (op cfg) n l) (fun r c => Rep c r (fun x => V (vals Fs x))) := by
  intro n
  induction n with
  | zero => intro Fs h2 hn; omega
  | succ n ih =>
    intro Fs h2 hn
    have hlen : ∀ (c : Nat → Cell) (l : List Nat), Reps c l Fs → decide (2 ≤ l.length) = true := by
      intro c l hl; rw [hl.length]; simpa using h2
    match Fs, h2, hn, hlen with
    | [F1, F2], _, _, hlen =>
      refine DetE.prog (m := fun cfg l => M.assert cfg.ndebug (decide (2 ≤ l.length)) >>= fun _ => op cfg (l.getD 0 0) (l.getD 1 0))
        (DetE.assert (((h.det F1 F2).op (fun l : List Nat => l.getD 0 0) (fun l => l.getD 1 0)
          (fun c l hl => hl.get 0 F1 rfl) (fun c l hl => hl.get 1 F2 rfl)).fn ?_) hlen) ?_
      · intro x
        simp only [vals, List.map_cons, List.map_nil]
        rw [show [F1 x, F2 x] = [F1 x] ++ [F2 x] from rfl, h.app, h.one, h.one]
      · intro cfg c l hl
        match l, hl.length with
        | [a, b], _ => rfl
    | [F1, F2, F3], _, _, hlen =>
      have hin : DetE P (fun c l => Reps c l [F1, F2, F3]) (fun cfg (l : List Nat) => op cfg (l.getD 1 0) (l.getD 2 0))
          (fun r c => Rep c r (fun x => G (F2 x) (F3 x))) :=
        (h.det F2 F3).op (fun l : List Nat => l.getD 1 0) (fun l => l.getD 2 0) (fun c l hl => hl.get 1 F2 rfl) (fun c l hl => hl.get 2 F3 rfl)
      refine DetE.prog (m := fun cfg l => M.assert cfg.ndebug (decide (2 ≤ l.length)) >>= fun _ =>
          op cfg (l.getD 1 0) (l.getD 2 0) >>= fun r => op cfg (l.getD 0 0) r)
        (DetE.assert ((DetE.bind (k := fun cfg r (l : List Nat) => op cfg (l.getD 0 0) r) Reps.pers hin
          ((h.det F1 _).op (fun p : Nat × List Nat => p.2.getD 0 0) (fun p => p.1)
            (fun c p hp => hp.2.get 0 F1 rfl) (fun c p hp => hp.1))).fn ?_) hlen) ?_
      · intro x
        simp only [vals, List.map_cons, List.map_nil]
        rw [show [F1 x, F2 x, F3 x] = [F1 x] ++ ([F2 x] ++ [F3 x]) from rfl, h.app, h.app, h.one, h.one, h.one]
      · intro cfg c l hl
        match l, hl.length with
        | [a, b, d], _ => rfl
    | F1 :: F2 :: F3 :: F4 :: Fs, _, hn, hlen =>
      generalize hFs : F1 :: F2 :: F3 :: F4 :: Fs = Gs at *
      have h4 : 4 ≤ Gs.length := by rw [← hFs]; simp
      have hA := ih (Gs.take (Gs.length / 2)) (by rw [List.length_take]; omega) (by rw [List.length_take]; omega)
      have hB := ih (Gs.drop (Gs.length / 2)) (by rw [List.length_drop]; omega) (by rw [List.length_drop]; omega)
      have hA' : DetE P (fun c l => Reps c l Gs) (fun cfg l => rangeRec cfg (op cfg) n (l.take (l.length / 2)))
          (fun r c => Rep c r (fun x => V (vals (Gs.take (Gs.length / 2)) x))) :=
        hA.map (fun l : List Nat => l.take (l.length / 2)) (fun c l hl => by rw [hl.length]; exact hl.take _) (fun _ _ h => h)
      have hB' : DetE P (fun c l => Reps c l Gs) (fun cfg l => rangeRec cfg (op cfg) n (l.drop (l.length / 2)))
          (fun r c => Rep c r (fun x => V (vals (Gs.drop (Gs.length / 2)) x))) :=
        hB.map (fun l : List Nat => l.drop (l.length / 2)) (fun c l hl => by rw [hl.length]; exact hl.drop _) (fun _ _ h => h)
      refine DetE.prog (DetE.assert (b := fun l => decide (2 ≤ l.length)) ((DetE.seq2 Reps.pers hA' hB' (h.det _ _)).fn ?_) hlen) ?_
      · intro x
        rw [← h.app]
        congr 1
        simp only [vals]
        rw [← List.map_append, List.take_append_drop]
      · intro cfg c l hl
        have hl4 : 4 ≤ l.length := by rw [hl.length]; exact h4
        match l, hl4 with
        | a :: b :: d :: e :: l, _ => rfl

theorem variadic_det (h : ListOp P op G V) : ∀ (Fs : List BFun), 2 ≤ Fs.length →
    DetE P (fun c l => Reps c l Fs) (fun cfg l => variadic (op cfg) l) (fun r c => Rep c r (fun x => V (vals Fs x))) := by
  intro Fs
  induction Fs with
  | nil => intro h; simp at h
  | cons F1 Fs ih =>
    intro hl2
    match Fs, ih, hl2 with
    | [F2], _, _ =>
      refine DetE.prog (((h.det F1 F2).op (fun l : List Nat => l.getD 0 0) (fun l => l.getD 1 0)
          (fun c l hl => hl.get 0 F1 rfl) (fun c l hl => hl.get 1 F2 rfl)).fn ?_) ?_
      · intro x
        simp only [vals, List.map_cons, List.map_nil]
        rw [show [F1 x, F2 x] = [F1 x] ++ [F2 x] from rfl, h.app, h.one, h.one]
      · intro cfg c l hl
        match l, hl.length with
        | [a, b], _ => rfl
    | F2 :: F3 :: Fs, ih, _ =>
      have hin : DetE P (fun c l => Reps c l (F1 :: F2 :: F3 :: Fs)) (fun cfg (l : List Nat) => variadic (op cfg) l.tail)
          (fun r c => Rep c r (fun x => V (vals (F2 :: F3 :: Fs) x))) :=
        (ih (by simp)).map List.tail (fun c l hl => by
          match l, hl with
          | a :: l, hl => exact hl.2) (fun _ _ h => h)
      refine DetE.prog ((DetE.bind (k := fun cfg r (l : List Nat) => op cfg (l.getD 0 0) r) Reps.pers hin
          ((h.det F1 _).op (fun p : Nat × List Nat => p.2.getD 0 0) (fun p => p.1)
            (fun c p hp => hp.2.get 0 F1 rfl) (fun c p hp => hp.1))).fn ?_) ?_
      · intro x
        show _ = V ([F1 x] ++ vals (F2 :: F3 :: Fs) x)
        rw [h.app, h.one]
      · intro cfg c l hl
        match l, hl.length with
        | a :: b :: d :: l, _ => rfl
end

/-! ### all_false, at_most_one, simplex -/

theorem vals_split (Fs : List BFun) (n : Nat) (x : Assign) : vals (Fs.take n) x ++ vals (Fs.drop n) x = vals Fs x := by
  simp only [vals]; rw [← List.map_append, List.take_append_drop]

theorem allFalseRec_det (P : Md → Prop) : ∀ (n : Nat) (Fs : List BFun), 1 ≤ Fs.length → Fs.length ≤ n →
    DetE P (fun c l => Reps c l Fs) (fun cfg l => allFalseRec cfg n l) (fun r c => Rep c r (fun x => (vals Fs x).all (! ·))) := by
  intro n
  induction n with
  | zero => intro Fs h2 hn; omega
  | succ n ih =>
    intro Fs h2 hn
    have hlen : ∀ (c : Nat → Cell) (l : List Nat), Reps c l Fs → decide (0 < l.length) = true := by
      intro c l hl; rw [hl.length]; exact decide_eq_true h2
    match Fs, h2, hn, hlen with
    | [F1], _, _, hlen =>
      refine DetE.prog (DetE.assert (b := fun l => decide (0 < l.length))
        ((DetE.neg (F := F1) (fun l : List Nat => l.getD 0 0) (fun c l hl => hl.get 0 F1 rfl)).fn (by intro x; simp [vals])) hlen) ?_
      intro cfg c l hl
      match l, hl.length with
      | [a], _ => rfl
    | [F1, F2], _, _, hlen =>
      refine DetE.prog (DetE.assert (b := fun l => decide (0 < l.length)) ((DetE.args2op Reps.pers
        (DetE.neg (F := F1) (fun l : List Nat => l.getD 0 0) (fun c l hl => hl.get 0 F1 rfl))
        (DetE.neg (F := F2) (fun l : List Nat => l.getD 1 0) (fun c l hl => hl.get 1 F2 rfl)) (det_and P _ _)).fn
          (by intro x; simp [vals])) hlen) ?_
      intro cfg c l hl
      match l, hl.length with
      | [a, b], _ => rfl
    | F1 :: F2 :: F3 :: Fs, _, hn, hlen =>
      generalize hFs : F1 :: F2 :: F3 :: Fs = Gs at *
      have h4 : 3 ≤ Gs.length := by rw [← hFs]; simp
      have hA := ih (Gs.take (Gs.length / 2)) (by rw [List.length_take]; omega) (by rw [List.length_take]; omega)
      have hB := ih (Gs.drop (Gs.length / 2)) (by rw [List.length_drop]; omega) (by rw [List.length_drop]; omega)
      have hA' := hA.map (H' := fun c l => Reps c l Gs) (fun l : List Nat => l.take (l.length / 2)) (fun c l hl => by rw [hl.length]; exact hl.take _) (fun _ _ h => h)
      have hB' := hB.map (H' := fun c l => Reps c l Gs) (fun l : List Nat => l.drop (l.length / 2)) (fun c l hl => by rw [hl.length]; exact hl.drop _) (fun _ _ h => h)
      refine DetE.prog (DetE.assert (b := fun l => decide (0 < l.length)) ((DetE.args2op Reps.pers hA' hB' (det_and P _ _)).fn ?_) hlen) ?_
      · intro x
        rw [← List.all_append, vals_split]
      · intro cfg c l hl
        have hl4 : 3 ≤ l.length := by rw [hl.length]; exact h4
        match l, hl4 with
        | a :: b :: d :: l, _ => rfl

theorem allFalse_det (P : Md → Prop) (Fs : List BFun) (h : 1 ≤ Fs.length) :
    DetE P (fun c l => Reps c l Fs) (fun cfg l => allFalse cfg l) (fun r c => Rep c r (fun x => (vals Fs x).all (! ·))) := by
  refine DetE.prog (allFalseRec_det P (Fs.length + 1) Fs h (by omega)) ?_
  intro cfg c l hl
  unfold allFalse
  rw [hl.length]

/-- Number of true values. -/
def cnt (l : List Bool) : Nat := l.countP id

theorem cnt_append (l l' : List Bool) : cnt (l ++ l') = cnt l + cnt l' := List.countP_append
theorem cnt_cons (a : Bool) (l : List Bool) : cnt (a :: l) = (if a then 1 else 0) + cnt l := by
  simp only [cnt, List.countP_cons, id]; omega
theorem cnt_nil : cnt [] = 0 := rfl
theorem cnt_le (l : List Bool) : cnt l ≤ l.length := List.countP_le_length
theorem all_not_iff (l : List Bool) : l.all (! ·) = decide (cnt l = 0) := by
  induction l with
  | nil => rfl
  | cons a l ih =>
    rw [List.all_cons, ih, cnt_cons]
    cases a with
    | true => simp
    | false => simp
theorem any_id_iff (l : List Bool) : l.any id = decide (1 ≤ cnt l) := by
  induction l with
  | nil => rfl
  | cons a l ih =>
    rw [List.any_cons, ih, cnt_cons]
    cases a with
    | true => simp
    | false => simp

theorem orNeg_det {ι : Type} {H : (Nat → Cell) → ι → Prop} (hH : Pers H) {F G : BFun} (f g : ι → Nat)
    (h1 : ∀ c i, H c i → Rep c (f i) F) (h2 : ∀ c i, H c i → Rep c (g i) G) :
    DetE OrMode H (fun cfg i => orNeg cfg (f i) (g i)) (fun r c => Rep c r (fun x => !F x || !G x)) := by
  unfold orNeg
  exact DetE.args2op hH (DetE.neg f h1) (DetE.neg g h2) (det_or _ _)

theorem atMostOneRec_det : ∀ (n : Nat) (Fs : List BFun), 1 ≤ Fs.length → Fs.length ≤ n →
    DetE OrMode (fun c l => Reps c l Fs) (fun cfg l => atMostOneRec cfg n l) (fun r c => Rep c r (fun x => decide (cnt (vals Fs x) ≤ 1))) := by
  intro n
  induction n with
  | zero => intro Fs h2 hn; omega
  | succ n ih =>
    intro Fs h2 hn
    have hlen : ∀ (c : Nat → Cell) (l : List Nat), Reps c l Fs → decide (0 < l.length) = true := by
      intro c l hl; rw [hl.length]; exact decide_eq_true h2
    match Fs, h2, hn, hlen with
    | [F1], _, _, hlen =>
      refine DetE.prog (DetE.assert (b := fun l => decide (0 < l.length))
        (DetE.pure (f := fun _ : List Nat => topId) (fun c l hl => ⟨.top, .top, fun x => ?_⟩)) hlen) ?_
      · simp only [Tree.eval, vals, List.map_cons, List.map_nil, cnt_cons, cnt_nil]
        cases F1 x <;> simp
      · intro cfg c l hl
        match l, hl.length with
        | [a], _ => rfl
    | [F1, F2], _, _, hlen =>
      refine DetE.prog (DetE.assert (b := fun l => decide (0 < l.length)) ((orNeg_det Reps.pers
        (fun l : List Nat => l.getD 0 0) (fun l : List Nat => l.getD 1 0) (fun c l hl => hl.get 0 F1 rfl) (fun c l hl => hl.get 1 F2 rfl)).fn ?_) hlen) ?_
      · intro x
        simp only [vals, List.map_cons, List.map_nil, cnt_cons, cnt_nil]
        cases F1 x <;> cases F2 x <;> simp
      · intro cfg c l hl
        match l, hl.length with
        | [a, b], _ => rfl
    | [F1, F2, F3], _, _, hlen =>
      have hargs := DetE.args3 (P := OrMode) (H := fun c l => Reps c l [F1, F2, F3]) Reps.pers Rep.pers Rep.pers Rep.pers
        (orNeg_det Reps.pers (fun l : List Nat => l.getD 0 0) (fun l : List Nat => l.getD 1 0) (fun c l hl => hl.get 0 F1 rfl) (fun c l hl => hl.get 1 F2 rfl))
        (orNeg_det Reps.pers (fun l : List Nat => l.getD 0 0) (fun l : List Nat => l.getD 2 0) (fun c l hl => hl.get 0 F1 rfl) (fun c l hl => hl.get 2 F3 rfl))
        (orNeg_det Reps.pers (fun l : List Nat => l.getD 1 0) (fun l : List Nat => l.getD 2 0) (fun c l hl => hl.get 1 F2 rfl) (fun c l hl => hl.get 2 F3 rfl))
      have hand := (variadic_det (listOp_and OrMode) [fun x => !F1 x || !F2 x, fun x => !F1 x || !F3 x, fun x => !F2 x || !F3 x] (by simp)).map
        (H' := fun c (p : (Nat × Nat × Nat) × List Nat) => (Rep c p.1.1 (fun x => !F1 x || !F2 x) ∧ Rep c p.1.2.1 (fun x => !F1 x || !F3 x) ∧
          Rep c p.1.2.2 (fun x => !F2 x || !F3 x)) ∧ Reps c p.2 [F1, F2, F3])
        (fun p => [p.1.1, p.1.2.1, p.1.2.2]) (fun c p hp => ⟨hp.1.1, hp.1.2.1, hp.1.2.2, trivial⟩) (fun _ _ h => h)
      refine DetE.prog (DetE.assert (b := fun l => decide (0 < l.length)) ((DetE.bind (k := fun cfg (r : Nat × Nat × Nat) (_ : List Nat) =>
        variadic (andOp cfg) [r.1, r.2.1, r.2.2]) Reps.pers hargs hand).fn ?_) hlen) ?_
      · intro x
        simp only [vals, List.map_cons, List.map_nil, cnt_cons, cnt_nil]
        cases F1 x <;> cases F2 x <;> cases F3 x <;> simp
      · intro cfg c l hl
        match l, hl.length with
        | [a, b, d], _ => rfl
    | F1 :: F2 :: F3 :: F4 :: Fs, _, hn, hlen =>
      generalize hFs : F1 :: F2 :: F3 :: F4 :: Fs = Gs at *
      have h4 : 4 ≤ Gs.length := by rw [← hFs]; simp
      have ht1 : 1 ≤ (Gs.take (Gs.length / 2)).length := by rw [List.length_take]; omega
      have hd1 : 1 ≤ (Gs.drop (Gs.length / 2)).length := by rw [List.length_drop]; omega
      have tk : ∀ (c : Nat → Cell) (l : List Nat), Reps c l Gs → Reps c (l.take (l.length / 2)) (Gs.take (Gs.length / 2)) :=
        fun c l hl => by rw [hl.length]; exact hl.take _
      have dr : ∀ (c : Nat → Cell) (l : List Nat), Reps c l Gs → Reps c (l.drop (l.length / 2)) (Gs.drop (Gs.length / 2)) :=
        fun c l hl => by rw [hl.length]; exact hl.drop _
      have hA := (ih _ ht1 (by rw [List.length_take]; omega)).map (H' := fun c l => Reps c l Gs) _ tk (fun _ _ h => h)
      have hB := (ih _ hd1 (by rw [List.length_drop]; omega)).map (H' := fun c l => Reps c l Gs) _ dr (fun _ _ h => h)
      have hC := (allFalse_det OrMode _ ht1).map (H' := fun c l => Reps c l Gs) _ tk (fun _ _ h => h)
      have hD := (allFalse_det OrMode _ hd1).map (H' := fun c l => Reps c l Gs) _ dr (fun _ _ h => h)
      obtain ⟨N1, hA⟩ := hA
      obtain ⟨N2, hC⟩ := hC
      obtain ⟨N3, hB⟩ := hB
      obtain ⟨N4, hD⟩ := hD
      have hfin := DetE.args2op (P := OrMode) (ι := Nat × Nat × Nat × Nat) (H := fun c p => Rep2 (fun x => decide (cnt (vals (Gs.take (Gs.length / 2)) x) ≤ 1))
          (fun x => (vals (Gs.take (Gs.length / 2)) x).all (! ·)) c (p.1, p.2.1) ∧ Rep2 (fun x => decide (cnt (vals (Gs.drop (Gs.length / 2)) x) ≤ 1))
          (fun x => (vals (Gs.drop (Gs.length / 2)) x).all (! ·)) c (p.2.2.1, p.2.2.2))
        (fun _ _ _ hx h => ⟨Rep2.pers _ _ _ hx h.1, Rep2.pers _ _ _ hx h.2⟩)
        ((det_and OrMode _ _).op (fun p : Nat × Nat × Nat × Nat => p.1) (fun p => p.2.2.2) (fun _ _ h => h.1.1) (fun _ _ h => h.2.2))
        ((det_and OrMode _ _).op (fun p : Nat × Nat × Nat × Nat => p.2.2.1) (fun p => p.2.1) (fun _ _ h => h.2.1) (fun _ _ h => h.1.2))
        (det_or _ _)
      obtain ⟨N5, hfin⟩ := hfin
      refine ⟨fun u => N1 u ∨ N2 u ∨ N3 u ∨ N4 u ∨ N5 u, ?_⟩
      intro cfg md refs s l hP hi hl
      have hl4 : 4 ≤ l.length := by rw [hl.length]; exact h4
      have e : atMostOneRec cfg (n + 1) l = M.assert cfg.ndebug (decide (0 < l.length)) >>= fun _ => (do
          let a1 ← atMostOneRec cfg n (l.take (l.length / 2))
          let f1 ← allFalse cfg (l.take (l.length / 2))
          let a2 ← atMostOneRec cfg n (l.drop (l.length / 2))
          let f2 ← allFalse cfg (l.drop (l.length / 2))
          let r ← args2 cfg (andOp cfg a1 f2) (andOp cfg a2 f1)
          orOp cfg r.1 r.2) := by
        match l, hl4 with
        | a :: b :: d :: e :: l, _ => rfl
      show Spec cfg md refs (atMostOneRec cfg (n + 1) l) s _
      rw [e]
      refine Spec.assert_bind (hlen _ _ hl) ?_
      refine Spec.bind (hA cfg md refs s l hP hi hl) ?_
      rintro a1 s1 x1 hi1 ⟨q1, n1⟩
      have hl1 := hl.ext x1.cells
      refine Spec.bind (hC cfg md refs s1 l hP hi1 hl1) ?_
      rintro f1 s2 x2 hi2 ⟨q2, n2⟩
      have hl2 := hl1.ext x2.cells
      refine Spec.bind (hB cfg md refs s2 l hP hi2 hl2) ?_
      rintro a2 s3 x3 hi3 ⟨q3, n3⟩
      have hl3 := hl2.ext x3.cells
      refine Spec.bind (hD cfg md refs s3 l hP hi3 hl3) ?_
      rintro f2 s4 x4 hi4 ⟨q4, n4⟩
      refine (hfin cfg md refs s4 (a1, f1, a2, f2) hP hi4 ⟨⟨q1.ext ((x2.cells.trans x3.cells).trans x4.cells),
        q2.ext (x3.cells.trans x4.cells)⟩, ⟨q3.ext x4.cells, q4⟩⟩).mono ?_
      rintro r s5 _ _ ⟨q5, n5⟩
      refine ⟨q5.congr ?_, fun ho => ((n1 ho).trans ((n2 ho).trans ((n3 ho).trans ((n4 ho).trans (n5 ho)))))⟩
      intro x
      rw [← vals_split Gs (Gs.length / 2) x, cnt_append, all_not_iff, all_not_iff]
      generalize cnt (vals (Gs.take (Gs.length / 2)) x) = a
      generalize cnt (vals (Gs.drop (Gs.length / 2)) x) = b
      rw [Bool.eq_iff_iff]
      simp only [Bool.or_eq_true, Bool.and_eq_true, decide_eq_true_eq]
      omega


theorem atMostOne_det (Fs : List BFun) (h : 1 ≤ Fs.length) :
    DetE OrMode (fun c l => Reps c l Fs) (fun cfg l => atMostOne cfg l) (fun r c => Rep c r (fun x => decide (cnt (vals Fs x) ≤ 1))) := by
  refine DetE.prog (atMostOneRec_det (Fs.length + 1) Fs h (by omega)) ?_
  intro cfg c l hl
  unfold atMostOne
  rw [hl.length]

theorem range_det {P : Md → Prop} {op : Cfg → Nat → Nat → M Mgr Nat} {G : Bool → Bool → Bool} {V : List Bool → Bool}
    (h : ListOp P op G V) (Fs : List BFun) (h2 : 2 ≤ Fs.length) :
    DetE P (fun c l => Reps c l Fs) (fun cfg l => rangeRec cfg (op cfg) (l.length + 1) l) (fun r c => Rep c r (fun x => V (vals Fs x))) := by
  refine DetE.prog (rangeRec_det h (Fs.length + 1) Fs h2 (by omega)) ?_
  intro cfg c l hl
  rw [hl.length]

theorem andRange_det (P : Md → Prop) (Fs : List BFun) (h2 : 2 ≤ Fs.length) :
    DetE P (fun c l => Reps c l Fs) (fun cfg l => andRange cfg l) (fun r c => Rep c r (fun x => (vals Fs x).all id)) :=
  range_det (listOp_and P) Fs h2
theorem orRange_det (Fs : List BFun) (h2 : 2 ≤ Fs.length) :
    DetE OrMode (fun c l => Reps c l Fs) (fun cfg l => orRange cfg l) (fun r c => Rep c r (fun x => (vals Fs x).any id)) :=
  range_det listOp_or Fs h2
theorem xorRange_det (Fs : List BFun) (h2 : 2 ≤ Fs.length) :
    DetE XorMode (fun c l => Reps c l Fs) (fun cfg l => xorRange cfg l) (fun r c => Rep c r (fun x => (vals Fs x).foldr (· ^^ ·) false)) :=
  range_det listOp_xor Fs h2

theorem simplex_det (Fs : List BFun) (h : 1 ≤ Fs.length) :
    DetE OrMode (fun c l => Reps c l Fs) (fun cfg l => simplex cfg l) (fun r c => Rep c r (fun x => decide (cnt (vals Fs x) = 1))) := by
  have hlen : ∀ (c : Nat → Cell) (l : List Nat), Reps c l Fs → decide (0 < l.length) = true := by
    intro c l hl; rw [hl.length]; exact decide_eq_true h
  match Fs, h, hlen with
  | [F], _, hlen =>
    refine DetE.prog (DetE.assert (b := fun l => decide (0 < l.length)) ((DetE.pure (f := fun l : List Nat => l.getD 0 0)
      (Q := fun r c => Rep c r F) (fun c l hl => hl.get 0 F rfl)).fn ?_) hlen) ?_
    · intro x
      simp only [vals, List.map_cons, List.map_nil, cnt_cons, cnt_nil]
      cases F x <;> simp
    · intro cfg c l hl
      match l, hl.length with
      | [a], _ => rfl
  | F1 :: F2 :: Fs, _, hlen =>
    refine DetE.prog (DetE.assert (b := fun l => decide (0 < l.length)) ((DetE.seq2 Reps.pers (orRange_det (F1 :: F2 :: Fs) (by simp))
      (atMostOne_det (F1 :: F2 :: Fs) (by simp)) (det_and OrMode _ _)).fn ?_) hlen) ?_
    · intro x
      rw [any_id_iff, Bool.eq_iff_iff]
      simp only [Bool.and_eq_true, decide_eq_true_eq]
      omega
    · intro cfg c l hl
      match l, hl.length with
      | a :: b :: l, _ => rfl

theorem atLeastOne_det (P : Md → Prop) (Fs : List BFun) (h : 1 ≤ Fs.length) :
    DetE P (fun c l => Reps c l Fs) (fun cfg l => atLeastOne cfg l) (fun r c => Rep c r (fun x => decide (1 ≤ cnt (vals Fs x)))) := by
  refine (DetE.bind (k := fun cfg r (_ : List Nat) => negateOp cfg r) Reps.pers (allFalse_det P Fs h)
    (DetE.neg (F := fun x => (vals Fs x).all (! ·)) (fun p : Nat × List Nat => p.1) (fun c p hp => hp.1))).fn ?_
  intro x
  rw [all_not_iff]
  by_cases e : cnt (vals Fs x) = 0
  · simp [e]
  · simp [e]; omega

/-! ### at_least, at_most, cardinality -/

theorem mapM'_det {ι : Type} {P : Md → Prop} {H : (Nat → Cell) → ι → Prop} (hH : Pers H) {m : Cfg → ι → Nat → M Mgr Nat} {F : Nat → BFun} :
    ∀ (is : List Nat), (∀ i, i ∈ is → DetE P H (fun cfg a => m cfg a i) (fun r c => Rep c r (F i))) →
    DetE P H (fun cfg a => mapM' (m cfg a) is) (fun rs c => Reps c rs (is.map F))
  | [], _ => DetE.pure (f := fun _ => []) (fun _ _ _ => trivial)
  | i :: is, h => by
    refine DetE.bind (k := fun cfg r a => mapM' (m cfg a) is >>= fun rs => Pure.pure (r :: rs)) hH (h i (by simp)) ?_
    refine DetE.bind (ι := Nat × ι) (m := fun cfg p => mapM' (m cfg p.2) is) (k := fun cfg rs p => Pure.pure (p.1 :: rs))
      (Q := fun rs c => Reps c rs (is.map F)) ?_ ?_ ?_
    · rintro c c' ⟨a, i⟩ hx ⟨ha, hi⟩; exact ⟨ha.ext hx, hH _ _ _ hx hi⟩
    · exact (mapM'_det hH is (fun j hj => h j (by simp [hj]))).map (fun p : Nat × ι => p.2) (fun _ _ h => h.2) (fun _ _ h => h)
    · exact DetE.pure (f := fun p : List Nat × Nat × ι => p.2.1 :: p.1) (fun c p hp => ⟨hp.2.1, hp.1⟩)

theorem zipAnd_det (P : Md → Prop) : ∀ (Fs Gs : List BFun),
    DetE P (fun c (p : List Nat × List Nat) => Reps c p.1 Fs ∧ Reps c p.2 Gs)
      (fun cfg p => mapM' (fun q : Nat × Nat => andOp cfg q.1 q.2) (p.1.zip p.2))
      (fun rs c => Reps c rs (List.zipWith (fun F G x => F x && G x) Fs Gs))
  | [], Gs => by
    refine DetE.prog (DetE.pure (f := fun _ => []) (fun _ _ _ => trivial)) ?_
    rintro cfg c ⟨l, r⟩ ⟨h1, h2⟩
    match l, h1 with
    | [], _ => rfl
  | F :: Fs, [] => by
    refine DetE.prog (DetE.pure (f := fun _ => []) (fun _ _ _ => trivial)) ?_
    rintro cfg c ⟨l, r⟩ ⟨h1, h2⟩
    match l, h1, r, h2 with
    | a :: l, h1, [], _ => rfl
  | F :: Fs, G :: Gs => by
    have hp : Pers (fun c (p : List Nat × List Nat) => Reps c p.1 (F :: Fs) ∧ Reps c p.2 (G :: Gs)) :=
      fun _ _ _ hx h => ⟨h.1.ext hx, h.2.ext hx⟩
    refine DetE.prog (DetE.bind (m := fun cfg (p : List Nat × List Nat) => andOp cfg (p.1.getD 0 0) (p.2.getD 0 0))
      (k := fun cfg r p => mapM' (fun q : Nat × Nat => andOp cfg q.1 q.2) (p.1.tail.zip p.2.tail) >>= fun rs => Pure.pure (r :: rs))
      (Q := fun r c => Rep c r (fun x => F x && G x)) hp ?_ ?_) ?_
    · exact (det_and P F G).op (fun p : List Nat × List Nat => p.1.getD 0 0) (fun p => p.2.getD 0 0)
        (fun c p hp => hp.1.get 0 F rfl) (fun c p hp => hp.2.get 0 G rfl)
    · refine DetE.bind (ι := Nat × List Nat × List Nat)
        (m := fun cfg p => mapM' (fun q : Nat × Nat => andOp cfg q.1 q.2) (p.2.1.tail.zip p.2.2.tail))
        (k := fun cfg rs p => Pure.pure (p.1 :: rs))
        (Q := fun rs c => Reps c rs (List.zipWith (fun F G x => F x && G x) Fs Gs)) ?_ ?_ ?_
      · rintro c c' ⟨a, i⟩ hx ⟨ha, hi⟩; exact ⟨ha.ext hx, hp _ _ _ hx hi⟩
      · refine (zipAnd_det P Fs Gs).map (fun p : Nat × List Nat × List Nat => (p.2.1.tail, p.2.2.tail)) ?_ (fun _ _ h => h)
        rintro c ⟨a, l, r⟩ ⟨_, h1, h2⟩
        match l, h1, r, h2 with
        | a :: l, h1, b :: r, h2 => exact ⟨h1.2, h2.2⟩
      · exact DetE.pure (f := fun p : List Nat × Nat × List Nat × List Nat => p.2.1 :: p.1) (fun c p hp => ⟨hp.2.1, hp.1⟩)
    · rintro cfg c ⟨l, r⟩ ⟨h1, h2⟩
      match l, h1, r, h2 with
      | a :: l, h1, b :: r, h2 => rfl

/-- `or_rec` over a range denoting `Fs` is the disjunction. -/
def OrOk (P : Md → Prop) (Fs : List BFun) : Prop :=
  DetE P (fun c l => Reps c l Fs) (fun cfg l => orRange cfg l) (fun r c => Rep c r (fun x => (vals Fs x).any id))

/-- What the recursion of `at_least`, `at_most` and `cardinality` needs to know about its early returns. `S n b k` is
the value for `n` elements, bound `b`, `k` of the elements being true. -/
structure CountSem (P : Md → Prop) (leaf : Cfg → List Nat → Nat → Option (M Mgr Nat)) (S : Nat → Nat → Nat → Bool) : Prop where
  cond : ∀ cfg (l : List Nat) b, leaf cfg l b = none → 1 ≤ b ∧ 2 ≤ l.length
  len : ∀ cfg (l l' : List Nat) b, l.length = l'.length → (leaf cfg l b = none ↔ leaf cfg l' b = none)
  val : ∀ (Fs : List BFun) (b : Nat), 1 ≤ Fs.length → (∀ cfg l, l.length = Fs.length → (leaf cfg l b).isSome) →
    DetE P (fun c l => Reps c l Fs) (fun cfg l => (leaf cfg l b).getD M.hang) (fun r c => Rep c r (fun x => S Fs.length b (cnt (vals Fs x))))
  conv : ∀ n1 n2 b k1 k2, 1 ≤ b → b ≤ n1 + n2 → k1 ≤ n1 → k2 ≤ n2 → 
    (S (n1 + n2) b (k1 + k2) = true ↔ ∃ i, i ≤ b ∧ S n1 i k1 = true ∧ S n2 (b - i) k2 = true)
  le : ∀ cfg (l : List Nat) b, leaf cfg l b = none → b ≤ l.length
  indep : ∀ cfg cfg' l b, leaf cfg l b = none ↔ leaf cfg' l b = none
  /-- the disjunction at the end of the recursion -/
  disj : ∀ (b n1 n2 : Nat) (k1 k2 : Assign → Nat), 1 ≤ b → OrOk P (List.zipWith (fun F G x => F x && G x)
    ((List.range (b + 1)).map (fun i x => S n1 i (k1 x))) ((List.range (b + 1)).map (fun i x => S n2 i (k2 x))).reverse)

theorem zipWith_range {F G : Nat → BFun} (b : Nat) (x : Assign) :
    (vals (List.zipWith (fun F G x => F x && G x) ((List.range (b + 1)).map F) ((List.range (b + 1)).map G).reverse) x).any id = true ↔
      ∃ i, i ≤ b ∧ F i x = true ∧ G (b - i) x = true := by
  simp only [vals, List.any_map, List.any_eq_true, Function.comp, id]
  constructor
  · rintro ⟨H, hm, hH⟩
    obtain ⟨i, hi, e⟩ := List.mem_iff_getElem.1 hm
    simp only [List.length_zipWith, List.length_map, List.length_reverse, List.length_range, Nat.min_self] at hi
    simp only [List.getElem_zipWith, List.getElem_map, List.getElem_range, List.getElem_reverse, List.length_map, List.length_range] at e
    subst e
    rw [Bool.and_eq_true] at hH
    refine ⟨i, by omega, hH.1, ?_⟩
    have : b + 1 - 1 - i = b - i := by omega
    rw [← this]; exact hH.2
  · rintro ⟨i, hi, h1, h2⟩
    refine ⟨fun x => F i x && G (b - i) x, ?_, by simp [h1, h2]⟩
    refine List.mem_iff_getElem.2 ⟨i, by simp; omega, ?_⟩
    simp only [List.getElem_zipWith, List.getElem_map, List.getElem_range, List.getElem_reverse, List.length_map, List.length_range]
    have : b + 1 - 1 - i = b - i := by omega
    rw [this]

theorem countRec_det {P : Md → Prop} {leaf : Cfg → List Nat → Nat → Option (M Mgr Nat)} {S : Nat → Nat → Nat → Bool} (hS : CountSem P leaf S) :
    ∀ (n : Nat) (Fs : List BFun) (b : Nat), 1 ≤ Fs.length → Fs.length ≤ n →
    DetE P (fun c l => Reps c l Fs) (fun cfg l => countRec cfg (leaf cfg) n l b) (fun r c => Rep c r (fun x => S Fs.length b (cnt (vals Fs x)))) := by
  intro n
  induction n with
  | zero => intro Fs b h1 hn; omega
  | succ n ih =>
    intro Fs b h1 hn
    have hlen : ∀ (c : Nat → Cell) (l : List Nat), Reps c l Fs → decide (0 < l.length) = true := by
      intro c l hl; rw [hl.length]; exact decide_eq_true h1
    by_cases hleaf : ∃ (cfg : Cfg) (l : List Nat), l.length = Fs.length ∧ leaf cfg l b = none
    · obtain ⟨cfg0, l0, hl0, e0⟩ := hleaf
      have hnone : ∀ cfg (l : List Nat), l.length = Fs.length → leaf cfg l b = none := fun cfg l hl =>
        (hS.len cfg l0 l b (hl0.trans hl.symm)).1 ((hS.indep cfg0 cfg l0 b).1 e0)
      obtain ⟨hb1, h2⟩ := hS.cond _ _ _ e0
      have hbn := hS.le _ _ _ e0
      rw [hl0] at h2 hbn
      have htl : (Fs.take (Fs.length / 2)).length = Fs.length / 2 := by rw [List.length_take]; omega
      have hdl : (Fs.drop (Fs.length / 2)).length = Fs.length - Fs.length / 2 := by rw [List.length_drop]
      have tk : ∀ (c : Nat → Cell) (l : List Nat), Reps c l Fs → Reps c (l.take (l.length / 2)) (Fs.take (Fs.length / 2)) :=
        fun c l hl => by rw [hl.length]; exact hl.take _
      have dr : ∀ (c : Nat → Cell) (l : List Nat), Reps c l Fs → Reps c (l.drop (l.length / 2)) (Fs.drop (Fs.length / 2)) :=
        fun c l hl => by rw [hl.length]; exact hl.drop _
      have hL := mapM'_det (P := P) (H := fun c l => Reps c l Fs) Reps.pers
        (m := fun cfg l i => countRec cfg (leaf cfg) n (l.take (l.length / 2)) i)
        (F := fun i x => S (Fs.take (Fs.length / 2)).length i (cnt (vals (Fs.take (Fs.length / 2)) x))) (List.range (b + 1))
        (fun i _ => (ih (Fs.take (Fs.length / 2)) i (by omega) (by omega)).map (fun l : List Nat => l.take (l.length / 2)) tk (fun _ _ h => h))
      have hR := mapM'_det (P := P) (H := fun c l => Reps c l Fs) Reps.pers
        (m := fun cfg l i => countRec cfg (leaf cfg) n (l.drop (l.length / 2)) i)
        (F := fun i x => S (Fs.drop (Fs.length / 2)).length i (cnt (vals (Fs.drop (Fs.length / 2)) x))) (List.range (b + 1))
        (fun i _ => (ih (Fs.drop (Fs.length / 2)) i (by omega) (by omega)).map (fun l : List Nat => l.drop (l.length / 2)) dr (fun _ _ h => h))
      have hZ := zipAnd_det P ((List.range (b + 1)).map (fun i x => S (Fs.take (Fs.length / 2)).length i (cnt (vals (Fs.take (Fs.length / 2)) x))))
        ((List.range (b + 1)).map (fun i x => S (Fs.drop (Fs.length / 2)).length i (cnt (vals (Fs.drop (Fs.length / 2)) x)))).reverse
      have hO := hS.disj b (Fs.take (Fs.length / 2)).length (Fs.drop (Fs.length / 2)).length (fun x => cnt (vals (Fs.take (Fs.length / 2)) x)) (fun x => cnt (vals (Fs.drop (Fs.length / 2)) x)) hb1
      unfold OrOk at hO
      obtain ⟨N1, hL⟩ := hL
      obtain ⟨N2, hR⟩ := hR
      obtain ⟨N3, hZ⟩ := hZ
      obtain ⟨N4, hO⟩ := hO
      refine ⟨fun u => N1 u ∨ N2 u ∨ N3 u ∨ N4 u, ?_⟩
      intro cfg md refs s l hP hi hl
      show Spec cfg md refs (countRec cfg (leaf cfg) (n + 1) l b) s _
      unfold countRec
      refine Spec.assert_bind (hlen _ _ hl) ?_
      rw [hnone cfg l hl.length]
      show Spec cfg md refs (mapM' _ _ >>= _) s _
      refine Spec.bind (hL cfg md refs s l hP hi hl) ?_
      rintro left s1 x1 hi1 ⟨q1, n1⟩
      have hl1 := hl.ext x1.cells
      refine Spec.bind (hR cfg md refs s1 l hP hi1 hl1) ?_
      rintro right s2 x2 hi2 ⟨q2, n2⟩
      refine Spec.bind (hZ cfg md refs s2 (left, right.reverse) hP hi2 ⟨q1.ext x2.cells, q2.reverse⟩) ?_
      rintro comb s3 x3 hi3 ⟨q3, n3⟩
      refine (hO cfg md refs s3 comb hP hi3 q3).mono ?_
      rintro r s4 _ _ ⟨q4, n4⟩
      refine ⟨q4.congr ?_, fun ho => (n1 ho).trans ((n2 ho).trans ((n3 ho).trans (n4 ho)))⟩
      intro x
      rw [Bool.eq_iff_iff, zipWith_range, ← vals_split Fs (Fs.length / 2) x, cnt_append]
      have hc1 : cnt (vals (Fs.take (Fs.length / 2)) x) ≤ (Fs.take (Fs.length / 2)).length := by
        have := cnt_le (vals (Fs.take (Fs.length / 2)) x); simpa [vals] using this
      have hc2 : cnt (vals (Fs.drop (Fs.length / 2)) x) ≤ (Fs.drop (Fs.length / 2)).length := by
        have := cnt_le (vals (Fs.drop (Fs.length / 2)) x); simpa [vals] using this
      have e12 : Fs.length = (Fs.take (Fs.length / 2)).length + (Fs.drop (Fs.length / 2)).length := by omega
      rw [e12] at hbn
      have := hS.conv _ _ _ _ _ hb1 hbn hc1 hc2
      rw [← e12] at this
      exact this.symm
    · have hsome : ∀ cfg (l : List Nat), l.length = Fs.length → (leaf cfg l b).isSome := by
        intro cfg l hl
        cases e : leaf cfg l b with
        | none => exact absurd ⟨cfg, l, hl, e⟩ hleaf
        | some m => rfl
      refine DetE.prog (DetE.assert (b := fun l => decide (0 < l.length)) (hS.val Fs b h1 hsome) hlen) ?_
      intro cfg c l hl
      show countRec cfg (leaf cfg) (n + 1) l b = _
      unfold countRec
      have := hsome cfg l hl.length
      cases e : leaf cfg l b with
      | none => rw [e] at this; cases this
      | some m => rfl

theorem Reps.headD {c : Nat → Cell} {l : List Nat} {F : BFun} {Fs : List BFun} (h : Reps c l (F :: Fs)) : Rep c (l.headD 0) F := by
  match l, h with
  | _ :: _, h => exact h.1

theorem det_const {P : Md → Prop} {ι : Type} {H : (Nat → Cell) → ι → Prop} (b : Bool) {F : BFun} (hF : ∀ x, F x = b) :
    DetE P H (fun _ _ => Pure.pure (if b then topId else botId)) (fun r c => Rep c r F) := by
  refine DetE.pure (f := fun _ => if b then topId else botId) ?_
  intro c i _
  cases b with
  | true => exact ⟨.top, .top, fun x => by rw [hF x]; rfl⟩
  | false => exact ⟨.bot, .bot, fun x => by rw [hF x]; rfl⟩

theorem cnt_vals_le (Fs : List BFun) (x : Assign) : cnt (vals Fs x) ≤ Fs.length := by
  have := cnt_le (vals Fs x); simpa [vals] using this

theorem cnt_one (F : BFun) (x : Assign) : cnt (vals [F] x) = if F x then 1 else 0 := by
  simp only [vals, List.map_cons, List.map_nil, cnt_cons, cnt_nil, Nat.add_zero]

theorem atLeast_sem : CountSem OrMode (fun _ => atLeastLeaf) (fun _ b k => decide (b ≤ k)) where
  disj := by intros; exact orRange_det _ (by simp; omega)
  cond := by
    intro _ l b h
    unfold atLeastLeaf at h
    split at h; · cases h
    split at h; · cases h
    split at h; · cases h
    omega
  len := by intro _ l l' b h; unfold atLeastLeaf; rw [h]; split <;> (try split) <;> (try split) <;> simp
  le := by
    intro _ l b h
    unfold atLeastLeaf at h
    split at h; · cases h
    omega
  indep := by intros; rfl
  conv := by
    intro n1 n2 b k1 k2 _ _ _ _
    simp only [decide_eq_true_eq]
    constructor
    · intro h; exact ⟨min k1 b, by omega, by omega, by omega⟩
    · rintro ⟨i, h1, h2, h3⟩; omega
  val := by
    intro Fs b h1 hs
    by_cases c1 : Fs.length < b
    · refine DetE.prog (det_const (P := OrMode) (H := fun c l => Reps c l Fs) false ?_) ?_
      · intro x; have := cnt_vals_le Fs x; simp; omega
      · intro cfg c l hl; unfold atLeastLeaf; rw [hl.length, if_pos c1]; rfl
    · by_cases c2 : Fs.length = 1 ∧ b = 1
      · match Fs, c2.1 with
        | [F], _ =>
          refine DetE.prog ((DetE.pure (f := fun l : List Nat => l.headD 0) (Q := fun r c => Rep c r F) (fun c l hl => hl.headD)).fn ?_) ?_
          · intro x; rw [cnt_one, c2.2]; cases F x <;> simp
          · intro cfg c l hl; unfold atLeastLeaf; rw [hl.length, if_neg c1, if_pos c2]; rfl
      · by_cases c3 : b = 0
        · refine DetE.prog (det_const (P := OrMode) (H := fun c l => Reps c l Fs) true ?_) ?_
          · intro x; simp [c3]
          · intro cfg c l hl; unfold atLeastLeaf; rw [hl.length, if_neg c1, if_neg c2, if_pos c3]; rfl
        · exfalso
          have := hs ⟨true, fun p => p + 65, by intros; omega, by intros; omega, fun _ => 0, false, fun _ => 0, fun _ => false⟩ (List.replicate Fs.length 0) (by simp)
          unfold atLeastLeaf at this
          rw [List.length_replicate, if_neg c1, if_neg c2, if_neg c3] at this
          cases this

theorem allFalseNeg_val {P : Md → Prop} {Fs : List BFun} (h1 : 1 ≤ Fs.length) {F : BFun} (hF : ∀ x, F x = decide (cnt (vals Fs x) = 0)) :
    DetE P (fun c l => Reps c l Fs) (fun cfg l => if l.length = 1 then negateOp cfg (l.headD 0) else allFalse cfg l) (fun r c => Rep c r F) := by
  by_cases h : Fs.length = 1
  · match Fs, h with
    | [G], _ =>
      refine DetE.prog ((DetE.neg (F := G) (fun l : List Nat => l.headD 0) (fun c l hl => hl.headD)).fn ?_) ?_
      · intro x; rw [hF, cnt_one]; cases G x <;> simp
      · intro cfg c l hl; show (if l.length = 1 then _ else _) = _; rw [hl.length]; rfl
  · refine DetE.prog ((allFalse_det P Fs h1).fn ?_) ?_
    · intro x; rw [hF, all_not_iff]
    · intro cfg c l hl; show (if l.length = 1 then _ else _) = _; rw [hl.length, if_neg h]

theorem atMost_sem : CountSem OrMode atMostLeaf (fun n b k => decide (b ≤ n ∧ k ≤ b)) where
  disj := by intros; exact orRange_det _ (by simp; omega)
  cond := by
    intro _ l b h
    unfold atMostLeaf at h
    split at h; · cases h
    split at h; · cases h
    split at h; · cases h
    split at h; · cases h
    omega
  len := by intro _ l l' b h; unfold atMostLeaf; rw [h]; split <;> (try split) <;> (try split) <;> (try split) <;> simp
  le := by
    intro _ l b h
    unfold atMostLeaf at h
    split at h; · cases h
    omega
  indep := by intro _ _ l b; unfold atMostLeaf; split <;> (try split) <;> (try split) <;> (try split) <;> simp
  conv := by
    intro n1 n2 b k1 k2 _ _ _ _
    simp only [decide_eq_true_eq]
    constructor
    · intro h; exact ⟨max k1 (b - n2), by omega, by omega, by omega⟩
    · rintro ⟨i, h1, h2, h3⟩; omega
  val := by
    intro Fs b h1 hs
    by_cases c1 : Fs.length < b
    · refine DetE.prog (det_const (P := OrMode) (H := fun c l => Reps c l Fs) false ?_) ?_
      · intro x; simp; omega
      · intro cfg c l hl; unfold atMostLeaf; rw [hl.length, if_pos c1]; rfl
    · by_cases c2 : Fs.length = 1 ∧ b = 1
      · refine DetE.prog (det_const (P := OrMode) (H := fun c l => Reps c l Fs) true ?_) ?_
        · intro x; have := cnt_vals_le Fs x; simp; omega
        · intro cfg c l hl; unfold atMostLeaf; rw [hl.length, if_neg c1, if_pos c2]; rfl
      · by_cases c3 : b = 0
        · refine DetE.prog (allFalseNeg_val h1 ?_) ?_
          · intro x; simp [c3]
          · intro cfg c l hl; unfold atMostLeaf; rw [hl.length, if_neg c1, if_neg c2]
            by_cases c4 : Fs.length = 1
            · rw [if_pos ⟨c4, c3⟩, if_pos c4]; rfl
            · rw [if_neg (fun h => c4 h.1), if_pos c3, if_neg c4]; rfl
        · exfalso
          have := hs ⟨true, fun p => p + 65, by intros; omega, by intros; omega, fun _ => 0, false, fun _ => 0, fun _ => false⟩ (List.replicate Fs.length 0) (by simp)
          unfold atMostLeaf at this
          rw [List.length_replicate, if_neg c1, if_neg c2, if_neg (fun h => c3 h.2), if_neg c3] at this
          cases this

theorem card_sem {P : Md → Prop} (hd : ∀ (b : Nat) (k1 k2 : Assign → Nat), 1 ≤ b → OrOk P (List.zipWith (fun F G x => F x && G x)
    ((List.range (b + 1)).map (fun i x => decide (k1 x = i))) ((List.range (b + 1)).map (fun i x => decide (k2 x = i))).reverse)) :
    CountSem P cardLeaf (fun _ b k => decide (k = b)) where
  disj := fun b _ _ k1 k2 h => hd b k1 k2 h
  cond := by
    intro _ l b h
    unfold cardLeaf at h
    split at h; · cases h
    split at h; · cases h
    split at h; · cases h
    split at h; · cases h
    omega
  len := by intro _ l l' b h; unfold cardLeaf; rw [h]; split <;> (try split) <;> (try split) <;> (try split) <;> simp
  le := by
    intro _ l b h
    unfold cardLeaf at h
    split at h; · cases h
    omega
  indep := by intro _ _ l b; unfold cardLeaf; split <;> (try split) <;> (try split) <;> (try split) <;> simp
  conv := by
    intro n1 n2 b k1 k2 _ _ _ _
    simp only [decide_eq_true_eq]
    constructor
    · intro h; exact ⟨k1, by omega, by omega, by omega⟩
    · rintro ⟨i, h1, h2, h3⟩; omega
  val := by
    intro Fs b h1 hs
    by_cases c1 : Fs.length < b
    · refine DetE.prog (det_const (P := P) (H := fun c l => Reps c l Fs) false ?_) ?_
      · intro x; have := cnt_vals_le Fs x; simp; omega
      · intro cfg c l hl; unfold cardLeaf; rw [hl.length, if_pos c1]; rfl
    · by_cases c2 : Fs.length = 1 ∧ b = 1
      · match Fs, c2.1 with
        | [F], _ =>
          refine DetE.prog ((DetE.pure (f := fun l : List Nat => l.headD 0) (Q := fun r c => Rep c r F) (fun c l hl => hl.headD)).fn ?_) ?_
          · intro x; rw [cnt_one, c2.2]; cases F x <;> simp
          · intro cfg c l hl; unfold cardLeaf; rw [hl.length, if_neg c1, if_pos c2]; rfl
      · by_cases c3 : b = 0
        · refine DetE.prog (allFalseNeg_val h1 ?_) ?_
          · intro x; simp [c3]
          · intro cfg c l hl; unfold cardLeaf; rw [hl.length, if_neg c1, if_neg c2]
            by_cases c4 : Fs.length = 1
            · rw [if_pos ⟨c4, c3⟩, if_pos c4]; rfl
            · rw [if_neg (fun h => c4 h.1), if_pos c3, if_neg c4]; rfl
        · exfalso
          have := hs ⟨true, fun p => p + 65, by intros; omega, by intros; omega, fun _ => 0, false, fun _ => 0, fun _ => false⟩ (List.replicate Fs.length 0) (by simp)
          unfold cardLeaf at this
          rw [List.length_replicate, if_neg c1, if_neg c2, if_neg (fun h => c3 h.2), if_neg c3] at this
          cases this

theorem count_det {P : Md → Prop} {leaf : Cfg → List Nat → Nat → Option (M Mgr Nat)} {S : Nat → Nat → Nat → Bool} (hS : CountSem P leaf S)
    (Fs : List BFun) (b : Nat) (h : 1 ≤ Fs.length) :
    DetE P (fun c l => Reps c l Fs) (fun cfg l => countRec cfg (leaf cfg) (l.length + 1) l b)
      (fun r c => Rep c r (fun x => S Fs.length b (cnt (vals Fs x)))) := by
  refine DetE.prog (countRec_det hS (Fs.length + 1) Fs b h (by omega)) ?_
  intro cfg c l hl
  rw [hl.length]

theorem atLeast_det (Fs : List BFun) (b : Nat) (h : 1 ≤ Fs.length) :
    DetE OrMode (fun c l => Reps c l Fs) (fun cfg l => atLeast cfg l b) (fun r c => Rep c r (fun x => decide (b ≤ cnt (vals Fs x)))) :=
  count_det atLeast_sem Fs b h
theorem atMost_det (Fs : List BFun) (b : Nat) (h : 1 ≤ Fs.length) :
    DetE OrMode (fun c l => Reps c l Fs) (fun cfg l => atMost cfg l b) (fun r c => Rep c r (fun x => decide (b ≤ Fs.length ∧ cnt (vals Fs x) ≤ b))) :=
  count_det atMost_sem Fs b h
theorem cardinality_det (Fs : List BFun) (b : Nat) (h : 1 ≤ Fs.length) :
    DetE OrMode (fun c l => Reps c l Fs) (fun cfg l => cardinality cfg l b) (fun r c => Rep c r (fun x => decide (cnt (vals Fs x) = b))) :=
  count_det (card_sem fun b k1 k2 h => orRange_det _ (by simp; omega)) Fs b h

end LBDD
