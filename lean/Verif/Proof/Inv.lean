import Verif.Proof.Table
import Verif.Proof.Tree
import Verif.Spec.Heap
import Verif.Proof.OpTree
/-! The heap abstraction `Repr` and the global invariant `Inv` of a manager. -/
namespace LBDD

/-- Node `p` of the heap unfolds to the decision tree `t`. -/
inductive Repr (cells : Nat → Cell) : Nat → Tree → Prop
  | bot : Repr cells 0 .bot
  | top : Repr cells 1 .top
  | node {p : Nat} {tl th : Tree} : 2 ≤ p → (cells p).live = true → (cells p).index < topsinkIndex →
      Repr cells (cells p).lo tl → Repr cells (cells p).hi th → Repr cells p (.node (cells p).index tl th)

/-- Live nodes keep their contents. -/
def CellsExt (c c' : Nat → Cell) : Prop :=
  ∀ p, (c p).live = true → (c' p).live = true ∧ (c' p).lo = (c p).lo ∧ (c' p).hi = (c p).hi ∧
    (c' p).index = (c p).index ∧ (c' p).hashKey = (c p).hashKey

theorem CellsExt.refl (c : Nat → Cell) : CellsExt c c := fun _ h => ⟨h, rfl, rfl, rfl, rfl⟩

theorem CellsExt.trans {a b c : Nat → Cell} (h1 : CellsExt a b) (h2 : CellsExt b c) : CellsExt a c := by
  intro p hp
  obtain ⟨l1, a1, a2, a3, a4⟩ := h1 p hp
  obtain ⟨l2, b1, b2, b3, b4⟩ := h2 p l1
  exact ⟨l2, b1.trans a1, b2.trans a2, b3.trans a3, b4.trans a4⟩

theorem Repr.ext {c c' : Nat → Cell} (h : CellsExt c c') {p : Nat} {t : Tree} (r : Repr c p t) : Repr c' p t := by
  induction r with
  | bot => exact .bot
  | top => exact .top
  | @node p tl th h2 hl hi _ _ ihl ihh =>
    obtain ⟨l', e1, e2, e3, _⟩ := h p hl
    rw [← e1] at ihl
    rw [← e2] at ihh
    rw [← e3]
    exact .node h2 l' (e3 ▸ hi) ihl ihh

theorem Repr.fn {c : Nat → Cell} {p : Nat} {t t' : Tree} (h : Repr c p t) (h' : Repr c p t') : t = t' := by
  induction h generalizing t' with
  | bot => cases h' with
    | bot => rfl
    | node h2 => omega
  | top => cases h' with
    | top => rfl
    | node h2 => omega
  | node h2 hl hi _ _ ihl ihh => cases h' with
    | bot => omega
    | top => omega
    | node _ _ _ h3 h4 => rw [ihl h3, ihh h4]

theorem Repr.bot_iff {c : Nat → Cell} {t : Tree} : Repr c 0 t ↔ t = .bot := by
  constructor
  · intro h; exact h.fn .bot
  · rintro rfl; exact .bot

theorem Repr.top_iff {c : Nat → Cell} {t : Tree} : Repr c 1 t ↔ t = .top := by
  constructor
  · intro h; exact h.fn .top
  · rintro rfl; exact .top

/-- Inversion for inner nodes. -/
theorem Repr.inv {c : Nat → Cell} {p : Nat} {t : Tree} (h : Repr c p t) (h2 : 2 ≤ p) :
    ∃ tl th, t = .node (c p).index tl th ∧ (c p).live = true ∧ (c p).index < topsinkIndex ∧
      Repr c (c p).lo tl ∧ Repr c (c p).hi th := by
  cases h with
  | bot => omega
  | top => omega
  | @node _ tl th _ hl hi h3 h4 => exact ⟨tl, th, rfl, hl, hi, h3, h4⟩

/-- Inversion from the tree. -/
theorem Repr.of_node {c : Nat → Cell} {p v : Nat} {tl th : Tree} (h : Repr c p (.node v tl th)) :
    2 ≤ p ∧ v = (c p).index ∧ (c p).live = true ∧ v < topsinkIndex ∧
      Repr c (c p).lo tl ∧ Repr c (c p).hi th := by
  cases h with
  | node h2 hl hi h3 h4 => exact ⟨h2, rfl, hl, hi, h3, h4⟩

/-- What the history of a manager guarantees about its nodes and its memo cache.
`ordered`: every BDD respects the variable order; `sem`: how the entries stored under the tag shared by
`or_rec` and `xor_rec` relate operand values and result value; `rel`: how they relate the operand BDDs and the result BDD as decision trees; `irel`: the
same for the entries of `ite_rec`. -/
structure Md where
  ordered : Prop
  sem : Bool → Bool → Bool → Prop
  rel : Tree → Tree → Tree → Prop
  irel : Tree → Tree → Tree → Tree → Prop

structure PoolOk (s : Mgr) : Prop where
  pages : 1 ≤ s.pool.pages
  off : s.pool.off ≤ 4096
  off2 : 2 ≤ s.pool.hw
  live : ∀ p, (s.cells p).live = true ↔ p < s.pool.hw ∧ p ∉ s.pool.avail
  avail : ∀ p, p ∈ s.pool.avail → 2 ≤ p ∧ p < s.pool.hw
  nodup : s.pool.avail.Nodup
  total : s.pool.total + s.pool.avail.length = s.pool.hw

structure TabOk (cells : Nat → Cell) (v : Nat) (t : VarTable) : Prop where
  pow : ∃ k, 6 ≤ k ∧ k ≤ 19 ∧ t.mask + 1 = 2 ^ k
  cap : t.mask + 1 ≤ t.cap
  slots : Slots (t.mask + 1) (fun p => hashCode cells (cells p).lo (cells p).hi)
    (fun p => 2 ≤ p ∧ (cells p).live = true ∧ (cells p).index = v) t.slots
  free : t.free = countFree t.slots (t.mask + 1)
  fill : t.mask + 1 ≤ 2 * t.free + 2
  page : t.mask = 63 ∧ t.cap = 64 ∨ pageCapFor t.mask = some t.cap
  dense : t.mask ≠ 63 → t.mask + 1 < 8 * (t.mask + 1 - t.free)

/-- Values `ite_rec` may give: the right one, or, where all three operands are true, whatever `or_rec` gives for
two true operands (this matters only in histories that mix `or_rec` and `xor_rec`). -/
def iteSem (R : Bool → Bool → Bool → Prop) (a b c r : Bool) : Prop :=
  r = (if a then b else c) ∨ (a = true ∧ b = true ∧ c = true ∧ R true true r)

/-- A memo entry is empty or states a true fact about the functions of its operands and result. -/
def EntryOk (cfg : Cfg) (md : Md) (cells : Nat → Cell) (e : MemoEntry) : Prop :=
  ∀ r, e.r = some r → ∃ f g tf tg tr, e.f = some f ∧ e.g = some g ∧ Repr cells f tf ∧ Repr cells g tg ∧
    Repr cells r tr ∧
    ((e.h = andTag ∧ (∀ x, tr.eval x = (tf.eval x && tg.eval x)) ∧
        (∀ w, tr.Mem w → tf.Mem w ∨ tg.Mem w) ∧ tr = tAnd tf tg) ∨
     (e.h = orTag ∧ (∀ x, md.sem (tf.eval x) (tg.eval x) (tr.eval x)) ∧
        (∀ w, tr.Mem w → tf.Mem w ∨ tg.Mem w) ∧ md.rel tf tg tr) ∨
     (∃ q tq, e.h = cfg.addr q ∧ Repr cells q tq ∧
        (∀ x, iteSem md.sem (tf.eval x) (tg.eval x) (tq.eval x) (tr.eval x)) ∧
        (∀ w, tr.Mem w → tf.Mem w ∨ tg.Mem w ∨ tq.Mem w) ∧ md.irel tf tg tq tr))

structure MemoOk (cfg : Cfg) (md : Md) (s : Mgr) : Prop where
  pow : ∃ k, s.memo.size = 2 ^ k
  mask : s.memo.mask + 1 = s.memo.size
  entry : ∀ k, k < s.memo.size → EntryOk cfg md s.cells (s.memo.entries k)
  place : ∀ k, k < s.memo.size → (s.memo.entries k).r.isSome = true → entryHash s.cells (s.memo.entries k) % s.memo.size = k

/-- The reference counts are exact for handle counts `refs`. -/
structure RefOk (refs : Nat → Nat) (s : Mgr) : Prop where
  count : ∀ p, (s.cells p).live = true →
    (s.cells p).xref = refs p + arcsTo s.cells p s.pool.hw + (if p < 2 then 1 else 0)
  live : ∀ p, 0 < refs p → (s.cells p).live = true

structure Inv (cfg : Cfg) (md : Md) (refs : Nat → Nat) (s : Mgr) : Prop where
  bot : (s.cells 0).index = botsinkIndex ∧ (s.cells 0).lo = (s.cells 0).hi
  top : (s.cells 1).index = topsinkIndex ∧ (s.cells 1).lo = (s.cells 1).hi
  nv : s.nvars ≤ topsinkIndex
  node : ∀ p, 2 ≤ p → (s.cells p).live = true →
    (s.cells p).index < s.nvars ∧ (s.cells p).lo ≠ (s.cells p).hi ∧ ∃ t, Repr s.cells p t
  uniq : ∀ p q, 2 ≤ p → 2 ≤ q → (s.cells p).live = true → (s.cells q).live = true →
    (s.cells p).index = (s.cells q).index → (s.cells p).lo = (s.cells q).lo →
    (s.cells p).hi = (s.cells q).hi → p = q
  ord : md.ordered → ∀ p t, Repr s.cells p t → t.Ordered
  ht : ∀ p t, Repr s.cells p t → t.height ≤ s.rngPos
  tab : ∀ v, v < s.nvars → TabOk s.cells v (s.tabs v)
  pool : PoolOk s
  memo : MemoOk cfg md s
  ref : RefOk refs s
  mark : ∀ p, 2 ≤ p → (s.cells p).live = true → s.marks p = false
  smark : s.marks 0 = cfg.sinkMark false ∧ s.marks 1 = cfg.sinkMark true

/-- The state only grew: existing nodes keep their contents. -/
structure Grow (s s' : Mgr) : Prop where
  cells : CellsExt s.cells s'.cells
  nvars : s.nvars ≤ s'.nvars
  rng : s.rngPos ≤ s'.rngPos

theorem Grow.refl (s : Mgr) : Grow s s := ⟨.refl _, Nat.le_refl _, Nat.le_refl _⟩
theorem Grow.trans {a b c : Mgr} (h1 : Grow a b) (h2 : Grow b c) : Grow a c :=
  ⟨h1.cells.trans h2.cells, Nat.le_trans h1.nvars h2.nvars, Nat.le_trans h1.rng h2.rng⟩

/-- Like `Grow`, and no variable was added. -/
structure Ext (s s' : Mgr) : Prop where
  cells : CellsExt s.cells s'.cells
  nvars : s'.nvars = s.nvars
  rng : s.rngPos ≤ s'.rngPos

theorem Ext.refl (s : Mgr) : Ext s s := ⟨.refl _, rfl, Nat.le_refl _⟩
theorem Ext.trans {a b c : Mgr} (h1 : Ext a b) (h2 : Ext b c) : Ext a c :=
  ⟨h1.cells.trans h2.cells, h2.nvars.trans h1.nvars, Nat.le_trans h1.rng h2.rng⟩
theorem Ext.grow {a b : Mgr} (h : Ext a b) : Grow a b := ⟨h.cells, by rw [h.nvars]; exact Nat.le_refl _, h.rng⟩

/-- State in which a capacity exception was thrown: some variable has more than 2^18 nodes, and its table is left with
the index mask of a page of 2^20 slots although its page has only 2^19. Apart from the tables the invariant holds. -/
def Thrown (cfg : Cfg) (md : Md) (refs : Nat → Nat) (s s' : Mgr) : Prop :=
  Grow s s' ∧ ∃ v, v < s'.nvars ∧ (s'.tabs v).mask = 1048575 ∧ (s'.tabs v).cap = 524288 ∧
    ∃ l : List Nat, l.Nodup ∧ 262144 < l.length ∧ (∀ p ∈ l, 2 ≤ p ∧ (s'.cells p).live = true ∧ (s'.cells p).index = v) ∧
      ∃ tb, Inv cfg md refs { s' with tabs := tb }

theorem Thrown.of_grow {cfg : Cfg} {md : Md} {refs : Nat → Nat} {a b c : Mgr} (h1 : Grow a b) (h2 : Thrown cfg md refs b c) : Thrown cfg md refs a c :=
  ⟨h1.trans h2.1, h2.2⟩

theorem Reaches.trans {c : Nat → Cell} {p q r : Nat} (h : Reaches c p q) (h' : Reaches c q r) : Reaches c p r := by
  induction h with
  | refl => exact h'
  | lo h2 hl _ ih => exact .lo h2 hl (ih h')
  | hi h2 hl _ ih => exact .hi h2 hl (ih h')

theorem Reaches.ext {c c' : Nat → Cell} (he : CellsExt c c') {p q : Nat} (h : Reaches c p q) : Reaches c' p q := by
  induction h with
  | refl => exact .refl _
  | lo h2 hl _ ih =>
    obtain ⟨a, b, _⟩ := he _ hl
    exact .lo h2 a (b ▸ ih)
  | hi h2 hl _ ih =>
    obtain ⟨a, _, b, _⟩ := he _ hl
    exact .hi h2 a (b ▸ ih)

/-- All nodes that are in `s'` but not in `s` are part of the BDD `r`. -/
def New (s s' : Mgr) (r : Nat) : Prop :=
  ∀ p, (s'.cells p).live = true → (s.cells p).live = true ∨ Reaches s'.cells r p

theorem New.refl {s : Mgr} {r : Nat} : New s s r := fun _ h => Or.inl h

theorem New.seq {s s1 s2 : Mgr} {r0 r1 r : Nat} (h0 : New s s1 r0) (hx : CellsExt s1.cells s2.cells) (h1 : New s1 s2 r1)
    (e0 : Reaches s2.cells r r0) (e1 : Reaches s2.cells r r1) : New s s2 r := by
  intro p hp
  rcases h1 p hp with h | h
  · rcases h0 p h with h | h
    · exact Or.inl h
    · exact Or.inr (e0.trans (h.ext hx))
  · exact Or.inr (e1.trans h)

theorem New.seq3 {s s1 s2 s3 : Mgr} {r0 r1 r : Nat} (h0 : New s s1 r0) (x2 : CellsExt s1.cells s2.cells) (h1 : New s1 s2 r1)
    (x3 : CellsExt s2.cells s3.cells) (h3 : New s2 s3 r)
    (e0 : Reaches s3.cells r r0) (e1 : Reaches s3.cells r r1) : New s s3 r := by
  intro p hp
  rcases h3 p hp with h | h
  · rcases h1 p h with h | h
    · rcases h0 p h with h | h
      · exact Or.inl h
      · exact Or.inr (e0.trans (h.ext (x2.trans x3)))
    · exact Or.inr (e1.trans (h.ext x3))
  · exact Or.inr h

theorem New.cells {s s1 s2 : Mgr} {r : Nat} (h : New s s1 r) (e : s2.cells = s1.cells) : New s s2 r := by
  unfold New at *; rw [e]; exact h

/-- Specification of a manager operation in an invariant-satisfying state. -/
def Spec (cfg : Cfg) (md : Md) (refs : Nat → Nat) {α : Type} (m : M Mgr α) (s : Mgr) (P : α → Mgr → Prop) : Prop :=
  M.Sat m s (fun a s' => Ext s s' ∧ Inv cfg md refs s' ∧ P a s') (Thrown cfg md refs s)

section
variable {cfg : Cfg} {md : Md} {refs : Nat → Nat} {α β : Type}

theorem Spec.bind {m : M Mgr α} {f : α → M Mgr β} {s : Mgr} {P : α → Mgr → Prop} {R : β → Mgr → Prop}
    (h : Spec cfg md refs m s P)
    (hf : ∀ a s', Ext s s' → Inv cfg md refs s' → P a s' → Spec cfg md refs (f a) s' R) :
    Spec cfg md refs (m >>= f) s R := by
  refine M.Sat.bind h ?_
  rintro a s' ⟨h1, h2, h3⟩
  refine (hf a s' h1 h2 h3).mono ?_ ?_
  · rintro b s'' ⟨h4, h5, h6⟩; exact ⟨h1.trans h4, h5, h6⟩
  · intro s'' h; exact h.of_grow h1.grow

theorem Spec.mono {m : M Mgr α} {s : Mgr} {P R : α → Mgr → Prop} (h : Spec cfg md refs m s P)
    (hf : ∀ a s', Ext s s' → Inv cfg md refs s' → P a s' → R a s') : Spec cfg md refs m s R :=
  M.Sat.mono h (fun a s' h => ⟨h.1, h.2.1, hf a s' h.1 h.2.1 h.2.2⟩) (fun _ h => h)

theorem Spec.pure {a : α} {s : Mgr} {P : α → Mgr → Prop} (hi : Inv cfg md refs s) (h : P a s) :
    Spec cfg md refs (Pure.pure a) s P := ⟨.refl _, hi, h⟩

theorem Spec.get_bind {f : Mgr → M Mgr β} {s : Mgr} {R : β → Mgr → Prop}
    (h : Spec cfg md refs (f s) s R) : Spec cfg md refs (M.get >>= f) s R := M.Sat_get_bind h

theorem Spec.pure_bind {a : α} {f : α → M Mgr β} {s : Mgr} {R : β → Mgr → Prop}
    (h : Spec cfg md refs (f a) s R) : Spec cfg md refs ((Pure.pure a : M Mgr α) >>= f) s R := M.Sat_pure_bind h

theorem Spec.assert_bind {nd c : Bool} {f : Unit → M Mgr β} {s : Mgr} {R : β → Mgr → Prop}
    (hc : c = true) (h : Spec cfg md refs (f ()) s R) :
    Spec cfg md refs ((M.assert nd c : M Mgr Unit) >>= f) s R := M.Sat_assert_bind hc h

/-- A sub-computation that returns `a` without changing the state. -/
theorem Spec.read_bind {m : M Mgr α} {a : α} {f : α → M Mgr β} {s : Mgr} {R : β → Mgr → Prop}
    (hm : m s = .ok a s) (h : Spec cfg md refs (f a) s R) : Spec cfg md refs (m >>= f) s R := by
  refine M.Sat_bind.2 ?_
  unfold M.Sat
  rw [hm]
  exact h
end

/-! ### consequences of the invariant -/

section
variable {cfg : Cfg} {md : Md} {refs : Nat → Nat} {s : Mgr}

theorem Inv.live0 (h : Inv cfg md refs s) : (s.cells 0).live = true :=
  (h.pool.live 0).2 ⟨by have := h.pool.off2; omega, fun hm => by have := (h.pool.avail 0 hm).1; omega⟩
theorem Inv.live1 (h : Inv cfg md refs s) : (s.cells 1).live = true :=
  (h.pool.live 1).2 ⟨by have := h.pool.off2; omega, fun hm => by have := (h.pool.avail 1 hm).1; omega⟩

theorem Inv.repr (h : Inv cfg md refs s) {p : Nat} (hl : (s.cells p).live = true) : ∃ t, Repr s.cells p t := by
  by_cases h2 : 2 ≤ p
  · exact (h.node p h2 hl).2.2
  · have : p = 0 ∨ p = 1 := by omega
    rcases this with rfl | rfl
    · exact ⟨_, .bot⟩
    · exact ⟨_, .top⟩

theorem Inv.live_of (h : Inv cfg md refs s) {p : Nat} {t : Tree} (r : Repr s.cells p t) : (s.cells p).live = true := by
  cases r with
  | bot => exact h.live0
  | top => exact h.live1
  | node _ hl => exact hl

theorem Inv.lo_live (h : Inv cfg md refs s) {p : Nat} (h2 : 2 ≤ p) (hl : (s.cells p).live = true) :
    (s.cells (s.cells p).lo).live = true := by
  obtain ⟨t, ht⟩ := h.repr hl
  obtain ⟨tl, th, _, _, _, h3, _⟩ := ht.inv h2
  exact h.live_of h3

theorem Inv.hi_live (h : Inv cfg md refs s) {p : Nat} (h2 : 2 ≤ p) (hl : (s.cells p).live = true) :
    (s.cells (s.cells p).hi).live = true := by
  obtain ⟨t, ht⟩ := h.repr hl
  obtain ⟨tl, th, _, _, _, _, h3⟩ := ht.inv h2
  exact h.live_of h3

/-- Equal trees are represented by equal nodes. -/
theorem Inv.repr_inj (h : Inv cfg md refs s) {t : Tree} : ∀ {p q : Nat}, Repr s.cells p t → Repr s.cells q t → p = q := by
  induction t with
  | bot =>
    intro p q hp hq
    cases hp; cases hq; rfl
  | top =>
    intro p q hp hq
    cases hp; cases hq; rfl
  | node v tl th ihl ihh =>
    intro p q hp hq
    obtain ⟨p2, pv, pl, _, p3, p4⟩ := hp.of_node
    obtain ⟨q2, qv, ql, _, q3, q4⟩ := hq.of_node
    exact h.uniq p q p2 q2 pl ql (pv.symm.trans qv) (ihl p3 q3) (ihh p4 q4)

/-- Trees of live nodes are reduced. -/
theorem Inv.reduced (h : Inv cfg md refs s) {t : Tree} : ∀ {p : Nat}, Repr s.cells p t → t.Reduced := by
  induction t with
  | bot => intros; trivial
  | top => intros; trivial
  | node v tl th ihl ihh =>
    intro p hp
    obtain ⟨p2, pv, pl, _, p3, p4⟩ := hp.of_node
    refine ⟨?_, ihl p3, ihh p4⟩
    rintro rfl
    exact (h.node p p2 pl).2.1 (h.repr_inj p3 p4)

/-- A node made for `(v, l, h)` reaches both children. -/
theorem Inv.mk_reaches (h : Inv cfg md refs s) {v p l hh : Nat} {tl th : Tree}
    (hp : Repr s.cells p (if tl = th then tl else .node v tl th)) (hl : Repr s.cells l tl) (hhh : Repr s.cells hh th) :
    Reaches s.cells p l ∧ Reaches s.cells p hh := by
  split at hp
  · rename_i e
    subst e
    rw [h.repr_inj hp hl, h.repr_inj hhh hl]
    exact ⟨.refl _, .refl _⟩
  · obtain ⟨p2, _, pl, _, p3, p4⟩ := hp.of_node
    rw [h.repr_inj hl p3, h.repr_inj hhh p4]
    exact ⟨.lo p2 pl (.refl _), .hi p2 pl (.refl _)⟩

/-- All variables of a BDD exist. -/
theorem Inv.mem_lt (h : Inv cfg md refs s) {t : Tree} : ∀ {p w : Nat}, Repr s.cells p t → t.Mem w → w < s.nvars := by
  induction t with
  | bot => intro p w _ hm; exact hm.elim
  | top => intro p w _ hm; exact hm.elim
  | node v tl th ihl ihh =>
    intro p w hp hm
    obtain ⟨p2, pv, pl, _, p3, p4⟩ := hp.of_node
    rcases hm with rfl | hm | hm
    · rw [pv]; exact (h.node p p2 pl).1
    · exact ihl p3 hm
    · exact ihh p4 hm

theorem Inv.xref_nonneg (h : Inv cfg md refs s) {p : Nat} {t : Tree} (r : Repr s.cells p t) : 0 ≤ (s.cells p).xref := by
  rw [h.ref.count p (h.live_of r)]
  split <;> omega

end

end LBDD
