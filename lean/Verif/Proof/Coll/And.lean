import Verif.Proof.Coll.Basic
import Verif.Proof.Sat
/-! The two conjunction algorithms of `bdd_collection`. -/
namespace LBDD

/-- The positions `key` unfold to the trees `ts`. -/
def CReprs (ins : List Instr) : List Nat → List Tree → Prop
  | [], [] => True
  | k :: ks, t :: ts => CRepr ins k t ∧ CReprs ins ks ts
  | _, _ => False

/-- The instructions at the positions `key`. -/
def InsAll (ins : List Instr) : List Nat → List Instr → Prop
  | [], [] => True
  | k :: ks, e :: es => ins[k]? = some e ∧ InsAll ins ks es
  | _, _ => False

/-- Cofactor with respect to `v` if `v` is the top variable. -/
def Tree.cofv (b : Bool) (v : Nat) : Tree → Tree
  | .node w l h => if w = v then (if b then h else l) else .node w l h
  | t => t

/-- Conjunction of trees. -/
def conj (ts : List Tree) (x : Assign) : Bool := ts.all fun t => t.eval x

theorem Tree.eval_cofv (v : Nat) (t : Tree) (x : Assign) : (t.cofv (x v) v).eval x = t.eval x := by
  cases t with
  | bot => rfl
  | top => rfl
  | node w l h =>
    simp only [Tree.cofv]
    by_cases e : w = v
    · subst e; simp only [if_true, Tree.eval]
      cases x w <;> simp
    · simp [e]

theorem conj_cofv (v : Nat) (ts : List Tree) (x : Assign) : conj (ts.map (Tree.cofv (x v) v)) x = conj ts x := by
  unfold conj
  induction ts with
  | nil => rfl
  | cons t ts ih => simp only [List.map_cons, List.all_cons, Tree.eval_cofv, ih]

theorem Tree.mem_cofv {b : Bool} {v w : Nat} {t : Tree} (h : (t.cofv b v).Mem w) : t.Mem w := by
  cases t with
  | bot => exact h
  | top => exact h
  | node u l r =>
    simp only [Tree.cofv] at h
    by_cases e : u = v
    · rw [if_pos e] at h
      cases b
      · exact Or.inr (Or.inl (by simpa using h))
      · exact Or.inr (Or.inr (by simpa using h))
    · rw [if_neg e] at h; exact h

theorem Tree.ordered_cofv {b : Bool} {v : Nat} {t : Tree} (h : t.Ordered) : (t.cofv b v).Ordered := by
  cases t with
  | bot => exact h
  | top => exact h
  | node u l r =>
    simp only [Tree.cofv]
    by_cases e : u = v
    · rw [if_pos e]
      cases b
      · exact h.2.2.1
      · exact h.2.2.2
    · rw [if_neg e]; exact h

/-- Root variable at least `v`. -/
def Tree.RootGe (v : Nat) : Tree → Prop
  | .node w _ _ => v ≤ w
  | _ => True

theorem Tree.cofv_gt {b : Bool} {v : Nat} {t : Tree} (h : t.Ordered) (hr : t.RootGe v) : ∀ w, (t.cofv b v).Mem w → v < w := by
  intro w hw
  cases t with
  | bot => exact hw.elim
  | top => exact hw.elim
  | node u l r =>
    simp only [Tree.RootGe] at hr
    simp only [Tree.cofv] at hw
    by_cases e : u = v
    · subst e
      rw [if_pos rfl] at hw
      cases b
      · exact h.1 w (by simpa using hw)
      · exact h.2.1 w (by simpa using hw)
    · rw [if_neg e] at hw
      have : v < u := by omega
      rcases hw with rfl | hw | hw
      · exact this
      · exact Nat.lt_trans this (h.1 w hw)
      · exact Nat.lt_trans this (h.2.1 w hw)

theorem CReprs.unique {ins : List Instr} : ∀ {key : List Nat} {ts ts' : List Tree}, CReprs ins key ts → CReprs ins key ts' → ts = ts'
  | [], [], [], _, _ => rfl
  | k :: ks, t :: ts, t' :: ts', h, h' => by rw [h.1.unique h'.1, CReprs.unique h.2 h'.2]
  | [], [], _ :: _, _, h => h.elim
  | [], _ :: _, _, h, _ => h.elim
  | _ :: _, [], _, h, _ => h.elim
  | _ :: _, _ :: _, [], _, h => h.elim

/-- The cofactors of the operands. -/
theorem CReprs.cof {ins : List Instr} {v : Nat} (hv : v < cBot) (b : Bool) : ∀ {key : List Nat} {es : List Instr} {ts : List Tree},
    InsAll ins key es → CReprs ins key ts → CReprs ins (cofC b v key es) (ts.map (Tree.cofv b v))
  | [], [], [], _, _ => trivial
  | k :: ks, e :: es, t :: ts, h, h' => by
    refine ⟨?_, CReprs.cof hv b h.2 h'.2⟩
    by_cases he : e.index = v
    · have hin : e.Inner := Instr.inner_of_lt (he ▸ hv)
      obtain ⟨tl, th, rfl, a, c⟩ := h'.1.inv h.1 hin
      simp only [Tree.cofv, he, if_true]
      cases b
      · exact a
      · exact c
    · rw [if_neg he]
      have : t.cofv b v = t := by
        cases h'.1 with
        | bot => rfl
        | top => rfl
        | node g1 _ _ _ =>
          have := h.1
          rw [this] at g1; cases g1
          simp [Tree.cofv, he]
      rw [this]; exact h'.1
  | [], [], _ :: _, _, h => h.elim
  | [], _ :: _, _, h, _ => h.elim
  | _ :: _, [], _, h, _ => h.elim
  | _ :: _, _ :: _, [], _, h => h.elim

/-- Position `k` lies in a well-formed range. -/
def InWf (ins : List Instr) (k : Nat) : Prop := ∃ d0 d1, WfRange ins d0 d1 ∧ d0 ≤ k ∧ k < d1

theorem InWf.get {ins : List Instr} {k : Nat} (h : InWf ins k) : ∃ e, ins[k]? = some e ∧ k < ins.length ∧
    ((e.Inner ∧ e.isTerm = false ∧ e.index < cBot ∧ k < e.lo ∧ k < e.hi ∧ InWf ins e.lo ∧ InWf ins e.hi) ∨
     (e.isTerm = true ∧ (e.index = cBot ∨ e.index = cTop))) := by
  obtain ⟨d0, d1, hw, h0, h1⟩ := h
  obtain ⟨e, he, hc⟩ := hw.cases h0 h1
  refine ⟨e, he, by have := hw.len; omega, ?_⟩
  rcases hc with ⟨a1, a2, a3, a4, a5, a6, a7⟩ | ⟨a1, a2, a3⟩
  · refine Or.inl ⟨Instr.inner_of_lt a2, by simp [Instr.isTerm, a3], a2, a4, a6, ⟨d0, d1, hw, by omega, a5⟩, ⟨d0, d1, hw, by omega, a7⟩⟩
  · exact Or.inr ⟨by simp [Instr.isTerm, a2], a3⟩

theorem InWf.repr {ins : List Instr} {k : Nat} (h : InWf ins k) : ∃ t, CRepr ins k t := by
  obtain ⟨d0, d1, hw, h0, h1⟩ := h
  obtain ⟨t, ht, _⟩ := hw.exists _ k rfl h0 h1
  exact ⟨t, ht⟩

theorem InWf.reprs {ins : List Instr} : ∀ {key : List Nat}, (∀ k ∈ key, InWf ins k) → ∃ ts, CReprs ins key ts
  | [], _ => ⟨[], trivial⟩
  | k :: ks, h => by
    obtain ⟨t, ht⟩ := (h k (by simp)).repr
    obtain ⟨ts, hts⟩ := InWf.reprs (key := ks) (fun j hj => h j (by simp [hj]))
    exact ⟨t :: ts, ht, hts⟩

/-- Work left: how far the operands are from the end of the vector. -/
def msr (ins : List Instr) (key : List Nat) : Nat := (key.map fun k => ins.length - k).sum

theorem msr_le (ins : List Instr) : ∀ key, msr ins key ≤ key.length * ins.length
  | [] => by simp [msr]
  | k :: ks => by
    have := msr_le ins ks
    simp only [msr, List.map_cons, List.sum_cons, List.length_cons] at *
    rw [Nat.add_mul]; omega

theorem cofC_wf {ins : List Instr} {v : Nat} (hv : v < cBot) (b : Bool) : ∀ {key : List Nat} {es : List Instr}, InsAll ins key es →
    (∀ k ∈ key, InWf ins k) → (∀ k ∈ cofC b v key es, InWf ins k) ∧ msr ins (cofC b v key es) ≤ msr ins key ∧
      ((∃ e ∈ es, e.index = v) → msr ins (cofC b v key es) < msr ins key)
  | [], [], _, _ => by simp [cofC, msr]
  | k :: ks, e :: es, h, hk => by
    obtain ⟨i1, i2, i3⟩ := cofC_wf hv b h.2 (fun j hj => hk j (by simp [hj]))
    obtain ⟨e', he', hlt, hc⟩ := (hk k (by simp)).get
    rw [h.1] at he'; cases he'
    by_cases he : e.index = v
    · have hin : e.Inner := Instr.inner_of_lt (he ▸ hv)
      have hc' : k < e.lo ∧ k < e.hi ∧ InWf ins e.lo ∧ InWf ins e.hi := by
        rcases hc with hc | ⟨_, hc⟩
        · exact ⟨hc.2.2.2.1, hc.2.2.2.2.1, hc.2.2.2.2.2⟩
        · rcases hc with hc | hc
          · exact absurd hc hin.1
          · exact absurd hc hin.2
      obtain ⟨c1, c2, c3, c4⟩ := hc'
      have hd : InWf ins (if b then e.hi else e.lo) ∧ k < (if b then e.hi else e.lo) := by cases b <;> simp [*]
      refine ⟨?_, ?_, ?_⟩
      · intro j hj
        simp only [cofC, he, if_true, List.mem_cons] at hj
        rcases hj with rfl | hj
        · exact hd.1
        · exact i1 j hj
      · simp only [cofC, he, if_true, msr, List.map_cons, List.sum_cons] at *
        have := hd.2; omega
      · intro _
        simp only [cofC, he, if_true, msr, List.map_cons, List.sum_cons] at *
        have := hd.2; omega
    · refine ⟨?_, ?_, ?_⟩
      · intro j hj
        simp only [cofC, he, if_false, List.mem_cons] at hj
        rcases hj with rfl | hj
        · exact hk _ (by simp)
        · exact i1 j hj
      · simp only [cofC, he, if_false, msr, List.map_cons, List.sum_cons] at *
        omega
      · rintro ⟨e', h1, h2⟩
        have : e' ∈ es := by
          rcases List.mem_cons.1 h1 with rfl | h1
          · exact absurd h2 he
          · exact h1
        have := i3 ⟨e', this, h2⟩
        simp only [cofC, he, if_false, msr, List.map_cons, List.sum_cons] at *
        omega
  | [], _ :: _, h, _ => h.elim
  | _ :: _, [], h, _ => h.elim

theorem InsAll.rootGe {ins : List Instr} {v : Nat} : ∀ {key : List Nat} {es : List Instr} {ts : List Tree},
    InsAll ins key es → CReprs ins key ts → (∀ e ∈ es, v ≤ e.index) → ∀ t ∈ ts, t.RootGe v
  | [], [], [], _, _, _ => by simp
  | k :: ks, e :: es, t :: ts, h, h', hv => by
    intro u hu
    rcases List.mem_cons.1 hu with rfl | hu
    · cases h'.1 with
      | bot => trivial
      | top => trivial
      | node g1 _ _ _ =>
        have := h.1
        rw [this] at g1; cases g1
        exact hv _ (by simp)
    · exact InsAll.rootGe h.2 h'.2 (fun e he => hv e (by simp [he])) u hu
  | [], [], _ :: _, _, h, _ => h.elim
  | [], _ :: _, _, h, _, _ => h.elim
  | _ :: _, [], _, h, _, _ => h.elim
  | _ :: _, _ :: _, [], _, h, _ => h.elim

theorem InsAll.memv {ins : List Instr} {v : Nat} : ∀ {key : List Nat} {es : List Instr} {ts : List Tree},
    InsAll ins key es → CReprs ins key ts → v < cBot → (∃ e ∈ es, e.index = v) → ∃ t ∈ ts, t.Mem v
  | [], [], [], _, _, _, h => by obtain ⟨e, h, _⟩ := h; simp at h
  | k :: ks, e :: es, t :: ts, h, h', hv, hex => by
    obtain ⟨e', h1, h2⟩ := hex
    rcases List.mem_cons.1 h1 with rfl | h1
    · obtain ⟨tl, th, rfl, _⟩ := h'.1.inv h.1 (Instr.inner_of_lt (h2 ▸ hv))
      exact ⟨.node e'.index tl th, by simp, Or.inl h2.symm⟩
    · obtain ⟨u, hu, hm⟩ := InsAll.memv h.2 h'.2 hv ⟨e', h1, h2⟩
      exact ⟨u, by simp [hu], hm⟩
  | [], [], _ :: _, _, h, _, _ => h.elim
  | [], _ :: _, _, h, _, _, _ => h.elim
  | _ :: _, [], _, h, _, _, _ => h.elim
  | _ :: _, _ :: _, [], _, h, _, _ => h.elim

/-! ## The stack -/

/-- The stack of nodes built so far. -/
structure SOk (st : List Instr) : Prop where
  s0 : st[0]? = some botInstr
  s1 : st[1]? = some topInstr
  inner : ∀ (i : Nat) (e : Instr), 2 ≤ i → st[i]? = some e → e.lo < i ∧ e.hi < i ∧ e.lo ≠ e.hi ∧ e.index < cBot
  nodup : ∀ (i j : Nat) (e : Instr), st[i]? = some e → st[j]? = some e → i = j

theorem SOk.init : SOk [botInstr, topInstr] where
  s0 := rfl
  s1 := rfl
  inner := by
    intro i e h he
    rw [List.getElem?_eq_none (by simpa using h)] at he; cases he
  nodup := by
    intro i j e hi hj
    have aux : ∀ (k : Nat) (e : Instr), [botInstr, topInstr][k]? = some e → (k = 0 ∧ e = botInstr) ∨ (k = 1 ∧ e = topInstr) := by
      intro k e h
      match k, h with
      | 0, h => exact Or.inl ⟨rfl, by simpa using h.symm⟩
      | 1, h => exact Or.inr ⟨rfl, by simpa using h.symm⟩
      | k + 2, h => rw [List.getElem?_eq_none (by simp)] at h; cases h
    have hne : botInstr ≠ topInstr := by decide
    rcases aux i e hi with ⟨rfl, h1⟩ | ⟨rfl, h1⟩ <;> rcases aux j e hj with ⟨rfl, h2⟩ | ⟨rfl, h2⟩
    · rfl
    · exact absurd (h1.symm.trans h2) hne
    · exact absurd (h2.symm.trans h1) hne
    · rfl

theorem SOk.two {st : List Instr} (h : SOk st) : 2 ≤ st.length := by
  rcases Nat.lt_or_ge 1 st.length with h1 | h1
  · exact h1
  · have := h.s1; rw [List.getElem?_eq_none h1] at this; cases this

theorem get_append_cases {α : Type} {l : List α} {a e : α} {i : Nat} (h : (l ++ [a])[i]? = some e) : (i < l.length ∧ l[i]? = some e) ∨ (i = l.length ∧ e = a) := by
  rcases Nat.lt_trichotomy i l.length with h1 | h1 | h1
  · rw [List.getElem?_append_left h1] at h; exact Or.inl ⟨h1, h⟩
  · subst h1; simp at h; exact Or.inr ⟨rfl, h.symm⟩
  · rw [List.getElem?_eq_none (by simp; omega)] at h; cases h

theorem lt_of_get {α : Type} {l : List α} {i : Nat} {e : α} (h : l[i]? = some e) : i < l.length := by
  rcases Nat.lt_or_ge i l.length with h1 | h1
  · exact h1
  · rw [List.getElem?_eq_none h1] at h; cases h

theorem get_append_left {α : Type} {l l' : List α} {i : Nat} {e : α} (h : l[i]? = some e) : (l ++ l')[i]? = some e := by
  rw [List.getElem?_append_left (lt_of_get h)]; exact h

theorem SOk.push {st : List Instr} {e : Instr} (h : SOk st) (h1 : e.lo < st.length) (h2 : e.hi < st.length) (h3 : e.lo ≠ e.hi)
    (h4 : e.index < cBot) (h5 : ∀ i : Nat, 2 ≤ i → st[i]? ≠ some e) : SOk (st ++ [e]) where
  s0 := get_append_left h.s0
  s1 := get_append_left h.s1
  inner := by
    intro i e' hi he
    rcases get_append_cases he with ⟨_, he⟩ | ⟨rfl, rfl⟩
    · exact h.inner i e' hi he
    · exact ⟨h1, h2, h3, h4⟩
  nodup := by
    have hnew : ∀ i : Nat, st[i]? ≠ some e := by
      intro i hi
      by_cases i2 : 2 ≤ i
      · exact h5 i i2 hi
      · have : i = 0 ∨ i = 1 := by omega
        rcases this with rfl | rfl
        · rw [h.s0] at hi; cases hi; exact absurd h4 (by decide)
        · rw [h.s1] at hi; cases hi; exact absurd h4 (by decide)
    intro i j e' hi hj
    rcases get_append_cases hi with ⟨_, hi⟩ | ⟨hi1, hi2⟩ <;> rcases get_append_cases hj with ⟨_, hj⟩ | ⟨hj1, hj2⟩
    · exact h.nodup i j e' hi hj
    · rw [hj2] at hi; exact absurd hi (hnew i)
    · rw [hi2] at hj; exact absurd hj (hnew j)
    · rw [hi1, hj1]

theorem CReach.append {st : List Instr} (l : List Instr) {i j : Nat} (h : CReach st i j) : CReach (st ++ l) i j := by
  induction h with
  | refl => exact .refl _
  | lo h1 h2 _ ih => exact .lo (get_append_left h1) h2 ih
  | hi h1 h2 _ ih => exact .hi (get_append_left h1) h2 ih

theorem CReach.trans {st : List Instr} {i j k : Nat} (h : CReach st i j) (h' : CReach st j k) : CReach st i k := by
  induction h with
  | refl => exact h'
  | lo h1 h2 _ ih => exact .lo h1 h2 (ih h')
  | hi h1 h2 _ ih => exact .hi h1 h2 (ih h')

/-- Stack position `m` holds the conjunction of the trees `ts`. -/
def AndT (st : List Instr) (ts : List Tree) (m : Nat) : Prop :=
  m < st.length ∧ ∃ t, CRepr st m t ∧ (∀ x, t.eval x = conj ts x) ∧ (∀ v, t.Mem v → ∃ u ∈ ts, u.Mem v) ∧
    ((∀ u ∈ ts, u.Ordered) → t.Ordered)

theorem AndT.append {st : List Instr} {ts : List Tree} {m : Nat} (l : List Instr) (h : AndT st ts m) : AndT (st ++ l) ts m := by
  obtain ⟨h1, t, h2, h3⟩ := h
  exact ⟨by simp; omega, t, h2.append l, h3⟩

/-- Invariant during a conjunction. -/
structure AInv (c : Coll) : Prop where
  sok : SOk c.stack
  red : ∀ e m, c.red.lookup e = some m → 2 ≤ m ∧ c.stack[m]? = some e
  red' : ∀ e m, 2 ≤ m → c.stack[m]? = some e → c.red.lookup e = some m
  gen : ∀ key m, c.gen.lookup key = some m → ∀ ts, CReprs c.ins key ts → AndT c.stack ts m

/-- The parts a conjunction does not touch. -/
structure Frame (c c' : Coll) : Prop where
  ins : c'.ins = c.ins
  del : c'.del = c.del
  nrh : c'.nrh = c.nrh

theorem Frame.refl (c : Coll) : Frame c c := ⟨rfl, rfl, rfl⟩
theorem Frame.trans {a b c : Coll} (h : Frame a b) (h' : Frame b c) : Frame a c :=
  ⟨h'.ins.trans h.ins, h'.del.trans h.del, h'.nrh.trans h.nrh⟩

/-- Result of computing the conjunction of the operands `key` with trees `ts`. -/
def AndPost (c : Coll) (limit : Nat) (ts : List Tree) (o : Res Coll (Option Nat)) : Prop :=
  match o with
  | .ok (some k) c' => Frame c c' ∧ AInv c' ∧ AndT c'.stack ts k ∧ ∃ new, c'.stack = c.stack ++ new ∧
      (new = [] ∨ k + 1 = c'.stack.length) ∧ (new = [] ∨ c'.stack.length ≤ limit) ∧
      ∀ j, c.stack.length ≤ j → j < c'.stack.length → CReach c'.stack k j
  | .ok none c' => Frame c c'
  | _ => False

theorem lookup_insertNew {κ : Type} [BEq κ] [LawfulBEq κ] [DecidableEq κ] {m : List (κ × Nat)} {k j : κ} {a : Nat} :
    (insertNew m k a).lookup j = if j = k ∧ m.lookup k = none then some a else m.lookup j := by
  unfold insertNew
  cases h : m.lookup k with
  | some b => simp
  | none =>
    simp only [Option.isSome_none, Bool.false_eq_true, if_false, and_true, List.lookup_cons]
    by_cases e : j = k
    · subst e; simp
    · have : (j == k) = false := by simpa using e
      simp [e, this]

theorem AndT.bot {st : List Instr} {ts : List Tree} (h : SOk st) (hf : ∀ x, conj ts x = false) : AndT st ts 0 :=
  ⟨by have := h.two; omega, .bot, .bot h.s0 rfl, fun x => by rw [hf]; rfl, fun v h => h.elim, fun _ => trivial⟩

theorem AndT.top {st : List Instr} {ts : List Tree} (h : SOk st) (hf : ∀ x, conj ts x = true) : AndT st ts 1 :=
  ⟨by have := h.two; omega, .top, .top h.s1 rfl, fun x => by rw [hf]; rfl, fun v h => h.elim, fun _ => trivial⟩

theorem AndPost.ret {c : Coll} {limit k : Nat} {ts : List Tree} (hi : AInv c) (h : AndT c.stack ts k) : AndPost c limit ts (.ok (some k) c) :=
  ⟨.refl _, hi, h, [], by simp, Or.inl rfl, Or.inl rfl, fun j h1 h2 => by omega⟩

/-- The common tail. -/
theorem andTail_ok {limit : Nat} {rec : List Nat → M Coll (Option Nat)} {key : List Nat} {es : List Instr} {v : Nat} {ts : List Tree} {c : Coll}
    (hi : AInv c) (hv : v < cBot) (hes : InsAll c.ins key es) (hts : CReprs c.ins key ts) (hmin : ∀ e ∈ es, v ≤ e.index) (hex : ∃ e ∈ es, e.index = v)
    (hrec : ∀ (b : Bool) (c' : Coll), AInv c' → Frame c c' → AndPost c' limit (ts.map (Tree.cofv b v)) (rec (cofC b v key es) c')) :
    AndPost c limit ts (andTail limit rec key es v c) := by
  unfold andTail
  have h1 := hrec false c hi (.refl _)
  cases e1 : rec (cofC false v key es) c with
  | throw => rw [e1] at h1; exact h1.elim
  | assertFail => rw [e1] at h1; exact h1.elim
  | ub => rw [e1] at h1; exact h1.elim
  | hang => rw [e1] at h1; exact h1.elim
  | ok o c1 =>
    rw [M.bind_ok e1]
    rw [e1] at h1
    cases o with
    | none => exact h1
    | some lo =>
      obtain ⟨f1, i1, t1, n1, s1, l1, b1, r1⟩ := h1
      have h2 := hrec true c1 i1 f1
      show AndPost c limit ts ((rec (cofC true v key es) >>= _) c1)
      cases e2 : rec (cofC true v key es) c1 with
      | throw => rw [e2] at h2; exact h2.elim
      | assertFail => rw [e2] at h2; exact h2.elim
      | ub => rw [e2] at h2; exact h2.elim
      | hang => rw [e2] at h2; exact h2.elim
      | ok o c2 =>
        rw [M.bind_ok e2]
        rw [e2] at h2
        cases o with
        | none => exact f1.trans h2
        | some hi' =>
          obtain ⟨f2, i2, t2, n2, s2, l2, b2, r2⟩ := h2
          have t1' : AndT c2.stack (ts.map (Tree.cofv false v)) lo := by rw [s2]; exact t1.append n2
          have r1' : ∀ j, c.stack.length ≤ j → j < c1.stack.length → CReach c2.stack lo j := by
            intro j h1 h2; rw [s2]; exact (r1 j h1 h2).append n2
          have s12 : c2.stack = c.stack ++ (n1 ++ n2) := by rw [s2, s1, List.append_assoc]
          have len1 : c1.stack.length = c.stack.length + n1.length := by rw [s1]; simp
          have len2 : c2.stack.length = c1.stack.length + n2.length := by rw [s2]; simp
          have hlo1 : lo < c1.stack.length := t1.1
          have hhi2 : hi' < c2.stack.length := t2.1
          have emp : ∀ (l : List Instr), l.length = 0 → l = [] := fun l h => List.eq_nil_of_length_eq_zero h
          obtain ⟨tl, ul, vl, ml, ol⟩ := t1'.2
          obtain ⟨th, uh, vh, mh, oh⟩ := t2.2
          -- the tree of the conjunction
          have heval : ∀ x, (if x v then th.eval x else tl.eval x) = conj ts x := by
            intro x
            rw [← conj_cofv v ts x]
            cases hx : x v
            · simp only [Bool.false_eq_true, if_false]; rw [vl]
            · simp only [if_true]; rw [vh]
          have hmem : ∀ w, (tl.Mem w ∨ th.Mem w) → ∃ u ∈ ts, u.Mem w := by
            rintro w (h | h)
            · obtain ⟨u, hu, hm⟩ := ml w h
              obtain ⟨u', hu', rfl⟩ := List.mem_map.1 hu
              exact ⟨u', hu', Tree.mem_cofv hm⟩
            · obtain ⟨u, hu, hm⟩ := mh w h
              obtain ⟨u', hu', rfl⟩ := List.mem_map.1 hu
              exact ⟨u', hu', Tree.mem_cofv hm⟩
          have hord : (∀ u ∈ ts, u.Ordered) → (Tree.node v tl th).Ordered := by
            intro ho
            have hg := hes.rootGe hts hmin
            have ho' : ∀ b, ∀ u ∈ ts.map (Tree.cofv b v), u.Ordered := by
              intro b u hu
              obtain ⟨u', hu', rfl⟩ := List.mem_map.1 hu
              exact Tree.ordered_cofv (ho u' hu')
            refine ⟨?_, ?_, ol (ho' false), oh (ho' true)⟩
            · intro w hw
              obtain ⟨u, hu, hm⟩ := ml w hw
              obtain ⟨u', hu', rfl⟩ := List.mem_map.1 hu
              exact Tree.cofv_gt (ho u' hu') (hg u' hu') w hm
            · intro w hw
              obtain ⟨u, hu, hm⟩ := mh w hw
              obtain ⟨u', hu', rfl⟩ := List.mem_map.1 hu
              exact Tree.cofv_gt (ho u' hu') (hg u' hu') w hm
          have hvm := hes.memv hts hv hex
          have hnode : ∀ st m, m < st.length → CRepr st m (.node v tl th) → AndT st ts m := by
            intro st m hm hr
            refine ⟨hm, _, hr, ?_, ?_, hord⟩
            · intro x; simp only [Tree.eval]; exact heval x
            · rintro w (rfl | hw | hw)
              · exact hvm
              · exact hmem w (Or.inl hw)
              · exact hmem w (Or.inr hw)
          have hfr := f1.trans f2
          show AndPost c limit ts ((if lo = hi' then _ else _ : M Coll (Option Nat)) c2)
          by_cases hlh : lo = hi'
          · rw [if_pos hlh]
            have hn2 : n2 = [] := by
              rcases l2 with h | h
              · exact h
              · exact emp _ (by omega)
            refine ⟨hfr, i2, ?_, n1 ++ n2, s12, ?_, ?_, ?_⟩
            · subst hlh
              have := ul.unique uh; subst this
              refine ⟨hhi2, tl, ul, ?_, ?_, fun ho => (hord ho).2.2.1⟩
              · intro x
                have := heval x
                simp only [ite_self] at this
                exact this
              · intro w hw; exact hmem w (Or.inl hw)
            · subst hn2
              simp only [List.append_nil] at *
              rcases l1 with h | h
              · exact Or.inl h
              · exact Or.inr (by rw [s2]; exact h)
            · subst hn2
              simp only [List.append_nil] at *
              rcases b1 with h | h
              · exact Or.inl h
              · exact Or.inr (by rw [s2]; exact h)
            · intro j h1 h2
              rcases Nat.lt_or_ge j c1.stack.length with h | h
              · exact r1' j h1 h
              · subst hlh; exact r2 j h h2
          · rw [if_neg hlh, M.get_bind_apply]
            have hlo2 : lo < c2.stack.length := by omega
            cases hred : c2.red.lookup ⟨lo, hi', v⟩ with
            | some m =>
              obtain ⟨m2, hm⟩ := i2.red _ _ hred
              obtain ⟨q1, q2, _, _⟩ := i2.sok.inner _ _ m2 hm
              have hml := lt_of_get hm
              have q2 : hi' < m := q2
              have q1 : lo < m := q1
              have hn2 : n2 = [] := by
                rcases l2 with h | h
                · exact h
                · exfalso; omega
              have hn1 : n1 = [] := by
                rcases l1 with h | h
                · exact h
                · subst hn2; exfalso; simp at len2; omega
              subst hn1; subst hn2
              refine ⟨hfr, i2, hnode _ _ hml (.node hm (Instr.inner_of_lt hv) ul uh), [], by simpa using s12, Or.inl rfl, Or.inl rfl, ?_⟩
              intro j h1 h2
              simp at len1 len2; omega
            | none =>
              have hnew : ∀ i : Nat, 2 ≤ i → c2.stack[i]? ≠ some ⟨lo, hi', v⟩ := by
                intro i h2 h
                rw [i2.red' _ _ h2 h] at hred; cases hred
              have sok' := i2.sok.push (e := ⟨lo, hi', v⟩) hlo2 hhi2 hlh hv hnew
              show AndPost c limit ts ((M.set _ >>= fun _ => if limit < c2.stack.length + 1 then _ else _) c2)
              rw [M.bind_ok (show M.set { c2 with stack := c2.stack ++ [⟨lo, hi', v⟩] } c2 = .ok () _ from rfl)]
              by_cases hlim : limit < c2.stack.length + 1
              · rw [if_pos hlim]
                exact ⟨hfr.ins, hfr.del, hfr.nrh⟩
              · rw [if_neg hlim]
                have hroot : CRepr (c2.stack ++ [⟨lo, hi', v⟩]) c2.stack.length (.node v tl th) :=
                  .node (e := ⟨lo, hi', v⟩) (by simp) (Instr.inner_of_lt hv) (ul.append _) (uh.append _)
                have hres := hnode _ _ (by simp) hroot
                refine ⟨⟨hfr.ins, hfr.del, hfr.nrh⟩, ⟨sok', ?_, ?_, ?_⟩, hres, n1 ++ n2 ++ [⟨lo, hi', v⟩], ?_, ?_, ?_, ?_⟩
                · intro e m he
                  simp only [lookup_insertNew, hred, and_true] at he
                  by_cases h : e = ⟨lo, hi', v⟩
                  · rw [if_pos h] at he; cases he
                    exact ⟨i2.sok.two, by simp [h]⟩
                  · rw [if_neg h] at he
                    exact ⟨(i2.red e m he).1, get_append_left (i2.red e m he).2⟩
                · intro e m m2 he
                  simp only [lookup_insertNew, hred, and_true]
                  rcases get_append_cases he with ⟨h1, h2⟩ | ⟨h1, h2⟩
                  · rw [if_neg (fun h => hnew m m2 (by rw [← h]; exact h2))]
                    exact i2.red' e m m2 h2
                  · rw [if_pos h2, h1]
                · intro k m hk us hus
                  have hk : (insertNew c2.gen key c2.stack.length).lookup k = some m := hk
                  rw [lookup_insertNew] at hk
                  have hus' : CReprs c.ins k us := by rw [← hfr.ins]; exact hus
                  by_cases h : k = key ∧ c2.gen.lookup key = none
                  · rw [if_pos h] at hk; cases hk
                    rw [h.1] at hus'
                    rw [hus'.unique hts]; exact hres
                  · rw [if_neg h] at hk
                    exact (i2.gen k m hk us hus).append _
                · show c2.stack ++ _ = _
                  rw [s12]; simp
                · exact Or.inr (by simp)
                · exact Or.inr (by simp; omega)
                · intro j h1 h2
                  simp only [List.length_append, List.length_cons, List.length_nil] at h2
                  have hg : (c2.stack ++ [⟨lo, hi', v⟩])[c2.stack.length]? = some ⟨lo, hi', v⟩ := by simp
                  have hin : (Instr.mk lo hi' v).Inner := Instr.inner_of_lt hv
                  rcases Nat.lt_or_ge j c1.stack.length with h | h
                  · exact CReach.lo hg hin ((r1' j h1 h).append _)
                  · rcases Nat.lt_or_ge j c2.stack.length with h' | h'
                    · exact CReach.hi hg hin ((r2 j h h').append _)
                    · have : j = c2.stack.length := by omega
                      subst this; exact .refl _

end LBDD
