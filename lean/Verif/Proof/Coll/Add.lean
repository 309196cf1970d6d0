import Verif.Proof.Coll.Same
import Verif.Proof.Query
/-! `bdd_collection::add_bdd`: copying a BDD of a manager into a collection. -/
namespace LBDD

/-! ## Appending an entry -/

/-- The collection with the instructions `xs` appended as a new entry. -/
def append (c : Coll) (xs : List Instr) : Coll :=
  { c with ins := c.ins ++ xs, del := c.del ++ [c.ins.length + xs.length] }

section
variable {c : Coll} {xs : List Instr}

theorem append_entry (h : CInv c) : (append c xs).Entry c.nrBdds c.ins.length (c.ins.length + xs.length) := by
  obtain ⟨h1, h2⟩ := getLast_length_del h
  refine ⟨?_, ?_⟩
  · show (c.del ++ _)[_]? = _
    rw [List.getElem?_append_left (by omega)]; exact h1
  · show (c.del ++ _)[_]? = _
    rw [List.getElem?_append_right (by omega), h2]; simp

theorem append_nrBdds (h : CInv c) : (append c xs).nrBdds = c.nrBdds + 1 := by
  obtain ⟨h1, h2⟩ := getLast_length_del h
  simp only [Coll.nrBdds, append, List.length_append, List.length_cons, List.length_nil] at *
  omega

theorem append_old_entry (h : CInv c) {nr d0 d1 : Nat} (he : c.Entry nr d0 d1) : (append c xs).Entry nr d0 d1 := by
  obtain ⟨h1, h2⟩ := getLast_length_del h
  have := he.lt
  refine ⟨?_, ?_⟩
  · show (c.del ++ _)[_]? = _
    rw [List.getElem?_append_left (by omega)]; exact he.1
  · show (c.del ++ _)[_]? = _
    rw [List.getElem?_append_left (by omega)]; exact he.2

theorem append_old {i : Nat} (h : i < c.ins.length) : (append c xs).ins[i]? = c.ins[i]? := List.getElem?_append_left h

theorem append_new (i : Nat) : (append c xs).ins[c.ins.length + i]? = xs[i]? := by
  show (c.ins ++ xs)[_]? = _
  rw [List.getElem?_append_right (by omega)]
  congr 1; omega

theorem append_same (h : CInv c) {nr : Nat} (hn : nr < c.nrBdds) : SameEntry c nr (append c xs) nr := by
  obtain ⟨d0, d1, he, hw⟩ := h.wf nr hn
  exact .of_eq hw he (append_old_entry h he) (fun i _ h1 => append_old (by have := hw.len; omega))

theorem append_inv (h : CInv c) (hw : WfRange (append c xs).ins c.ins.length (c.ins.length + xs.length)) : CInv (append c xs) where
  first := by
    obtain ⟨h1, h2⟩ := getLast_length_del h
    show (c.del ++ _)[_]? = _
    rw [List.getElem?_append_left (by omega)]; exact h.first
  last := by
    show (c.del ++ _).getLast? = some (c.ins ++ xs).length
    simp
  wf := by
    intro nr hn
    rw [append_nrBdds h] at hn
    rcases Nat.lt_or_ge nr c.nrBdds with h1 | h1
    · exact (append_same h h1).wf (h.wf nr h1)
    · have : nr = c.nrBdds := by omega
      subst this
      exact ⟨_, _, append_entry h, hw⟩
  stack := h.stack
  gen := h.gen
  red := h.red
  nrh := h.nrh
end

/-! ## The instructions of a list of nodes -/

/-- Position of node `q`: the nodes of `L`, then the two sinks, from position `N` on. -/
def posIn (N : Nat) (L : List Nat) (q : Nat) : Nat := if q < 2 then N + L.length + q else N + L.idxOf q

/-- The instruction of node `q`. -/
def encode (cells : Nat → Cell) (N : Nat) (L : List Nat) (q : Nat) : Instr :=
  ⟨posIn N L (cells q).lo, posIn N L (cells q).hi, (cells q).index⟩

/-- The instructions of the nodes of `L` and the sinks. -/
def encodeAll (cells : Nat → Cell) (N : Nat) (L : List Nat) : List Instr := L.map (encode cells N L) ++ [botInstr, topInstr]

theorem encodeAll_length (cells : Nat → Cell) (N : Nat) (L : List Nat) : (encodeAll cells N L).length = L.length + 2 := by
  simp [encodeAll]

theorem idxOf_get {L : List Nat} {q : Nat} (h : q ∈ L) : L[L.idxOf q]? = some q := by
  have hl := List.idxOf_lt_length_of_mem h
  rw [List.getElem?_eq_getElem hl, List.getElem_idxOf]

theorem idxOf_of_get {L : List Nat} (hn : L.Nodup) {i q : Nat} (h : L[i]? = some q) : L.idxOf q = i := by
  have hi := lt_of_get h
  have : L[i] = q := by rw [List.getElem?_eq_getElem hi] at h; injection h
  subst this
  exact hn.idxOf_getElem i hi

theorem nodup_reverse {l : List Nat} (h : l.Nodup) : l.reverse.Nodup := (List.reverse_perm l).nodup_iff.2 h

/-- `L` lists the inner nodes of the BDD `p`, root first, parents before children. -/
structure TopoList (cells : Nat → Cell) (p : Nat) (L : List Nat) : Prop where
  lists : Lists cells p L
  head : L.head? = some p
  order : ∀ q r, q ∈ L → (r = (cells q).lo ∨ r = (cells q).hi) → 2 ≤ r → r ∈ L ∧ L.idxOf q < L.idxOf r

theorem TopoList.of_post {c : Nat → Cell} {p : Nat} {l : List Nat} (h : Lists c p l) (hp : PostOk c (fun _ => False) l)
    (hl : ∃ l', l = l' ++ [p]) : TopoList c p l.reverse where
  lists := ⟨nodup_reverse h.nodup, fun q => by rw [List.mem_reverse]; exact h.mem q⟩
  head := by obtain ⟨l', rfl⟩ := hl; simp
  order := by
    intro q r hq hr h2
    have hn : l.reverse.Nodup := nodup_reverse h.nodup
    rw [List.mem_reverse] at hq
    obtain ⟨a, b, rfl⟩ := List.append_of_mem hq
    have hra : r ∈ a := by
      rcases hp.split r hr h2 with h | h
      · exact h.elim
      · exact h
    refine ⟨by simp [hra], ?_⟩
    simp only [List.reverse_append, List.reverse_cons, List.append_assoc, List.singleton_append] at hn ⊢
    obtain ⟨n1, n2, n3⟩ := List.nodup_append.1 hn
    have q1 : q ∉ b.reverse := fun hb => n3 q hb q (by simp) rfl
    have r1 : r ∉ b.reverse := fun hb => n3 r hb r (by simp [hra]) rfl
    have qr : q ≠ r := by
      rintro rfl
      exact (List.nodup_cons.1 n2).1 (by simpa using hra)
    rw [List.idxOf_append, List.idxOf_append, if_neg q1, if_neg r1, List.idxOf_cons, List.idxOf_cons]
    have : (q == r) = false := by simpa using qr
    simp [this]

section
variable {cfg : Cfg} {md : Md} {refs : Nat → Nat} {s : Mgr} {p : Nat} {t : Tree} {L : List Nat}

theorem TopoList.two (h : TopoList s.cells p L) {q : Nat} (hq : q ∈ L) : 2 ≤ q := ((h.lists.mem q).1 hq).1

theorem TopoList.live (hi : Inv cfg md refs s) (hp : Repr s.cells p t) (h : TopoList s.cells p L) {q : Nat} (hq : q ∈ L) :
    (s.cells q).live = true := ((h.lists.mem q).1 hq).2.live_or hi hp

/-- The arcs of a listed node lead to listed nodes or sinks. -/
theorem TopoList.child (h : TopoList s.cells p L) {q r : Nat} (hq : q ∈ L) (hr : r = (s.cells q).lo ∨ r = (s.cells q).hi) : r < 2 ∨ r ∈ L := by
  by_cases h2 : 2 ≤ r
  · exact Or.inr (h.order q r hq hr h2).1
  · exact Or.inl (by omega)

theorem posIn_inj (hn : ∀ q ∈ L, 2 ≤ q) {N q r : Nat} (hq : q < 2 ∨ q ∈ L) (hr : r < 2 ∨ r ∈ L) (e : posIn N L q = posIn N L r) : q = r := by
  unfold posIn at e
  rcases hq with hq | hq <;> rcases hr with hr | hr
  · simp only [hq, hr, if_true] at e; omega
  · have := hn r hr
    have h1 := List.idxOf_lt_length_of_mem hr
    rw [if_pos hq, if_neg (by omega)] at e; omega
  · have := hn q hq
    have h1 := List.idxOf_lt_length_of_mem hq
    rw [if_neg (by omega), if_pos hr] at e; omega
  · have := hn r hr
    have := hn q hq
    rw [if_neg (by omega), if_neg (by omega)] at e
    have a := idxOf_get hq
    rw [show L.idxOf q = L.idxOf r by omega, idxOf_get hr] at a
    injection a with a; exact a.symm

variable {c : Coll}

theorem enc_node {cells : Nat → Cell} (c : Coll) {q : Nat} (hq : q ∈ L) :
    (append c (encodeAll cells c.ins.length L)).ins[c.ins.length + L.idxOf q]? = some (encode cells c.ins.length L q) := by
  rw [append_new]
  unfold encodeAll
  rw [List.getElem?_append_left (by simpa using List.idxOf_lt_length_of_mem hq), List.getElem?_map, idxOf_get hq]; rfl

theorem enc_bot {cells : Nat → Cell} (c : Coll) : (append c (encodeAll cells c.ins.length L)).ins[c.ins.length + L.length]? = some botInstr := by
  rw [append_new]; unfold encodeAll
  rw [List.getElem?_append_right (by simp)]; simp

theorem enc_top {cells : Nat → Cell} (c : Coll) : (append c (encodeAll cells c.ins.length L)).ins[c.ins.length + L.length + 1]? = some topInstr := by
  rw [Nat.add_assoc, append_new]; unfold encodeAll
  rw [List.getElem?_append_right (by simp)]; simp

theorem index_lt_cBot (hi : Inv cfg md refs s) {q : Nat} (h2 : 2 ≤ q) (hl : (s.cells q).live = true) : (s.cells q).index < cBot := by
  have h1 := (hi.node q h2 hl).1
  have h3 := hi.nv
  have h4 : topsinkIndex < cBot := by unfold topsinkIndex cBot; decide +kernel
  omega

/-- The position of a node unfolds to what the node unfolds to. -/
theorem enc_repr (hi : Inv cfg md refs s) (h : TopoList s.cells p L) {q : Nat} {t : Tree} (hq : Repr s.cells q t) (hm : q < 2 ∨ q ∈ L) :
    CRepr (append c (encodeAll s.cells c.ins.length L)).ins (posIn c.ins.length L q) t := by
  induction hq with
  | bot => exact .bot (enc_bot c) rfl
  | top => exact .top (enc_top c) rfl
  | @node q tl th h2 hl _ _ _ ih1 ih2 =>
    have hq : q ∈ L := by
      rcases hm with h | h
      · omega
      · exact h
    have e : posIn c.ins.length L q = c.ins.length + L.idxOf q := by unfold posIn; rw [if_neg (by omega)]
    rw [e]
    exact .node (enc_node c hq) (Instr.inner_of_lt (index_lt_cBot hi h2 hl)) (ih1 (h.child hq (Or.inl rfl))) (ih2 (h.child hq (Or.inr rfl)))

theorem posIn_lt {N q : Nat} (hq : q < 2 ∨ q ∈ L) : posIn N L q < N + L.length + 2 := by
  unfold posIn
  rcases hq with h | h
  · rw [if_pos h]; omega
  · have := List.idxOf_lt_length_of_mem h
    split <;> omega

theorem posIn_child (h : TopoList s.cells p L) {N q r : Nat} (hq : q ∈ L) (hr : r = (s.cells q).lo ∨ r = (s.cells q).hi) :
    N + L.idxOf q < posIn N L r ∧ posIn N L r < N + L.length + 2 := by
  refine ⟨?_, posIn_lt (h.child hq hr)⟩
  have := List.idxOf_lt_length_of_mem hq
  unfold posIn
  split
  · omega
  · have := (h.order q r hq hr (by omega)).2; omega

theorem enc_wf (hi : Inv cfg md refs s) (hp : Repr s.cells p t) (h : TopoList s.cells p L) :
    WfRange (append c (encodeAll s.cells c.ins.length L)).ins c.ins.length (c.ins.length + (encodeAll s.cells c.ins.length L).length) where
  two := by rw [encodeAll_length]; omega
  inner := by
    rw [encodeAll_length]
    intro i h0 h1
    have hl : i - c.ins.length < L.length := by omega
    obtain ⟨q, hq⟩ : ∃ q, L[i - c.ins.length]? = some q := ⟨_, List.getElem?_eq_getElem hl⟩
    have hm : q ∈ L := List.mem_of_getElem? hq
    have hx := idxOf_of_get h.lists.nodup hq
    have he := enc_node (cells := s.cells) c hm
    rw [hx, show c.ins.length + (i - c.ins.length) = i by omega] at he
    have k1 := posIn_child (N := c.ins.length) h hm (Or.inl rfl)
    have k2 := posIn_child (N := c.ins.length) h hm (Or.inr rfl)
    rw [hx] at k1 k2
    refine ⟨_, he, index_lt_cBot hi (h.two hm) (h.live hi hp hm), ?_, ?_⟩
    · intro e
      exact (hi.node q (h.two hm) (h.live hi hp hm)).2.1 (posIn_inj (fun q hq => h.two hq) (h.child hm (Or.inl rfl)) (h.child hm (Or.inr rfl)) e)
    · simp only [encode]; omega
  sinks := by
    rw [encodeAll_length]
    exact ⟨_, _, by rw [show c.ins.length + (L.length + 2) - 2 = c.ins.length + L.length by omega]; exact enc_bot c,
      by rw [show c.ins.length + (L.length + 2) - 1 = c.ins.length + L.length + 1 by omega]; exact enc_top c, rfl, rfl, Or.inl ⟨rfl, rfl⟩⟩

/-- What stands in the new entry. -/
theorem enc_cases {i : Nat} {e : Instr} {cells : Nat → Cell} (h : L.Nodup) (h0 : c.ins.length ≤ i)
    (he : (append c (encodeAll cells c.ins.length L)).ins[i]? = some e) :
    (∃ q ∈ L, i = c.ins.length + L.idxOf q ∧ e = encode cells c.ins.length L q) ∨
    (i = c.ins.length + L.length ∧ e = botInstr) ∨ (i = c.ins.length + L.length + 1 ∧ e = topInstr) := by
  have hi := lt_of_get he
  simp only [append, List.length_append, encodeAll_length] at hi
  by_cases h1 : i - c.ins.length < L.length
  · left
    obtain ⟨q, hq⟩ : ∃ q, L[i - c.ins.length]? = some q := ⟨_, List.getElem?_eq_getElem h1⟩
    have hm : q ∈ L := List.mem_of_getElem? hq
    have hx := idxOf_of_get h hq
    refine ⟨q, hm, by omega, ?_⟩
    have he' := enc_node (cells := cells) c hm
    rw [hx, show c.ins.length + (i - c.ins.length) = i by omega, he] at he'
    injection he'
  · right
    have : i = c.ins.length + L.length ∨ i = c.ins.length + L.length + 1 := by omega
    rcases this with rfl | rfl
    · rw [enc_bot] at he; cases he; exact Or.inl ⟨rfl, rfl⟩
    · rw [enc_top] at he; cases he; exact Or.inr ⟨rfl, rfl⟩

theorem enc_nodup (hi : Inv cfg md refs s) (hp : Repr s.cells p t) (h : TopoList s.cells p L) (i j : Nat) (e : Instr) (hi0 : c.ins.length ≤ i)
    (hj0 : c.ins.length ≤ j) (hin : e.Inner) (h1 : (append c (encodeAll s.cells c.ins.length L)).ins[i]? = some e)
    (h2 : (append c (encodeAll s.cells c.ins.length L)).ins[j]? = some e) : i = j := by
  rcases enc_cases h.lists.nodup hi0 h1 with ⟨q, hq, rfl, e1⟩ | ⟨_, rfl⟩ | ⟨_, rfl⟩
  · rcases enc_cases h.lists.nodup hj0 h2 with ⟨r, hr, rfl, e2⟩ | ⟨_, rfl⟩ | ⟨_, rfl⟩
    · rw [e1] at e2
      simp only [encode, Instr.mk.injEq] at e2
      have two : ∀ q ∈ L, 2 ≤ q := fun q hq => h.two hq
      have := hi.uniq q r (h.two hq) (h.two hr) (h.live hi hp hq) (h.live hi hp hr) e2.2.2
        (posIn_inj two (h.child hq (Or.inl rfl)) (h.child hr (Or.inl rfl)) e2.1)
        (posIn_inj two (h.child hq (Or.inr rfl)) (h.child hr (Or.inr rfl)) e2.2.1)
      rw [this]
    · exact absurd rfl hin.1
    · exact absurd rfl hin.2
  · exact absurd rfl hin.1
  · exact absurd rfl hin.2

theorem enc_reach (hi : Inv cfg md refs s) (h : TopoList s.cells p L) {q r : Nat} (hq : q < 2 ∨ q ∈ L) (hr : Reaches s.cells q r) :
    CReach (append c (encodeAll s.cells c.ins.length L)).ins (posIn c.ins.length L q) (posIn c.ins.length L r) := by
  induction hr with
  | refl => exact .refl _
  | @lo q r h2 hl _ ih =>
    have hm : q ∈ L := by
      rcases hq with h | h
      · omega
      · exact h
    have e : posIn c.ins.length L q = c.ins.length + L.idxOf q := by unfold posIn; rw [if_neg (by omega)]
    rw [e]
    exact .lo (enc_node c hm) (Instr.inner_of_lt (index_lt_cBot hi h2 hl)) (ih (h.child hm (Or.inl rfl)))
  | @hi q r h2 hl _ ih =>
    have hm : q ∈ L := by
      rcases hq with h | h
      · omega
      · exact h
    have e : posIn c.ins.length L q = c.ins.length + L.idxOf q := by unfold posIn; rw [if_neg (by omega)]
    rw [e]
    exact .hi (enc_node c hm) (Instr.inner_of_lt (index_lt_cBot hi h2 hl)) (ih (h.child hm (Or.inr rfl)))

end

/-! ## The loops -/

section
variable {cfg : Cfg} {md : Md} {refs : Nat → Nat} {s : Mgr} {p : Nat} {t : Tree} {L : List Nat} {c : Coll}

/-- The instruction of a node before its arcs are set. -/
def rawInstr (cells : Nat → Cell) (q : Nat) : Instr := ⟨cTop, cTop, (cells q).index⟩

theorem insertNew_lookup (m : List (Nat × Nat)) (k a q : Nat) :
    (insertNew m k a).lookup q = (m.lookup q).or (if q = k then some a else none) := by
  unfold insertNew
  cases e : m.lookup k with
  | some b =>
    simp only [Option.isSome_some, if_true]
    by_cases h : q = k
    · subst h; rw [e]; rfl
    · simp [h]
  | none =>
    simp only [Option.isSome_none, Bool.false_eq_true, if_false, List.lookup]
    by_cases h : q = k
    · subst h; simp [e]
    · rw [beq_false_of_ne h]; simp [h]

theorem addNodes_ok (hi : Inv cfg md refs s) : ∀ (L : List Nat) (c : Coll), (∀ q ∈ L, 2 ≤ q ∧ (s.cells q).live = true) →
    ∃ m, addNodes cfg L (s, c) = .ok () (s, { c with nrh := m, ins := c.ins ++ L.map (rawInstr s.cells) }) ∧
      ∀ q, m.lookup q = (c.nrh.lookup q).or (if q ∈ L then some (c.ins.length + L.idxOf q) else none)
  | [], c, _ => ⟨c.nrh, by simp [addNodes]; rfl, by simp⟩
  | p :: ps, c, h => by
    obtain ⟨h2, hl⟩ := h p (by simp)
    obtain ⟨t, ht⟩ := (hi.node p h2 hl).2.2
    have ht' := isTerm_ok (cfg := cfg) hi ht rfl
    obtain ⟨m, e, hm⟩ := addNodes_ok hi ps
      { c with nrh := insertNew c.nrh p c.ins.length, ins := c.ins ++ [rawInstr s.cells p] } (fun q hq => h q (by simp [hq]))
    refine ⟨m, ?_, ?_⟩
    · unfold addNodes
      have : onM (isTerm cfg p) (s, c) = .ok (decide (p < 2)) (s, c) := by unfold onM; simp only [ht']
      rw [M.bind_ok this, M.assert_bind_apply (by simp; omega)]
      refine Eq.trans (M.bind_ok (s' := (s, { c with nrh := insertNew c.nrh p c.ins.length, ins := c.ins ++ [rawInstr s.cells p] })) (a := ()) rfl) ?_
      rw [e]
      simp
    · intro q
      rw [hm, insertNew_lookup]
      by_cases hq : q = p
      · subst hq; cases List.lookup q c.nrh <;> simp
      · have : (p == q) = false := by simp; exact fun h => hq h.symm
        simp only [List.length_append, List.length_cons, List.length_nil, hq, if_false, Option.or_none, List.mem_cons, false_or, List.idxOf_cons, this, cond_false]
        simp only [Nat.add_assoc, Nat.add_comm 1]

theorem addArcs_ok (hi : Inv cfg md refs s) (f : Nat → Nat) (offset : Nat) (B : List Instr) : ∀ (L : List Nat) (i : Nat) (A : List Instr) (c : Coll),
    (∀ q ∈ L, 2 ≤ q ∧ (s.cells q).live = true ∧ c.nrh.lookup (s.cells q).lo = some (f (s.cells q).lo) ∧
      c.nrh.lookup (s.cells q).hi = some (f (s.cells q).hi)) →
    (∀ j q, L[j]? = some q → i + j < f (s.cells q).lo ∧ i + j < f (s.cells q).hi) →
    A.length = offset + i → c.ins = A ++ L.map (rawInstr s.cells) ++ B →
    addArcs cfg offset i L (s, c) = .ok () (s, { c with ins := A ++ L.map (fun q => ⟨f (s.cells q).lo, f (s.cells q).hi, (s.cells q).index⟩) ++ B })
  | [], i, A, c, _, _, _, hc => by simp at hc; simp [addArcs, hc.symm]; rfl
  | p :: ps, i, A, c, h, hb, hA, hc => by
    obtain ⟨h2, hl, k1, k2⟩ := h p (by simp)
    obtain ⟨b1, b2⟩ := hb 0 p rfl
    have g : c.ins[offset + i]? = some (rawInstr s.cells p) := by
      rw [hc, ← hA]; simp
    unfold addArcs
    have e1 : onM (lowOf p) (s, c) = .ok (s.cells p).lo (s, c) := by unfold onM; simp only [lowOf_congr hi h2 hl rfl]
    have e2 : onM (highOf p) (s, c) = .ok (s.cells p).hi (s, c) := by unfold onM; simp only [highOf_congr hi h2 hl rfl]
    rw [M.bind_ok e1, M.bind_ok e2, M.get_bind_apply]
    simp only [k1, k2, g]
    rw [M.assert_bind_apply (by simp; omega), M.assert_bind_apply (by simp; omega)]
    have hset : c.ins.set (offset + i) ⟨f (s.cells p).lo, f (s.cells p).hi, (s.cells p).index⟩ =
        (A ++ [⟨f (s.cells p).lo, f (s.cells p).hi, (s.cells p).index⟩]) ++ ps.map (rawInstr s.cells) ++ B := by
      rw [hc, ← hA]; simp
    refine Eq.trans (M.bind_ok (s' := (s, { c with ins := (A ++ [⟨f (s.cells p).lo, f (s.cells p).hi, (s.cells p).index⟩]) ++ ps.map (rawInstr s.cells) ++ B })) (a := ()) ?_) ?_
    · rw [← hset]; rfl
    · refine (addArcs_ok hi f offset B ps (i + 1) (A ++ [⟨f (s.cells p).lo, f (s.cells p).hi, (s.cells p).index⟩])
        { c with ins := (A ++ [⟨f (s.cells p).lo, f (s.cells p).hi, (s.cells p).index⟩]) ++ ps.map (rawInstr s.cells) ++ B }
        (fun q hq => h q (by simp [hq])) (fun j q hj => ?_) (by simp [hA]; omega) rfl).trans ?_
      rotate_left
      · simp
      · have := hb (j + 1) q (by simpa using hj)
        omega

/-- The complete outcome of `add_bdd` for a non-constant BDD: the manager is unchanged, the collection has one more entry. -/
theorem addBdd_ok (hi : Inv cfg md refs s) (hc : CInv c) (hp : Repr s.cells p t) (h2 : 2 ≤ p) :
    ∃ L, TopoList s.cells p L ∧ addBdd cfg p (s, c) = .ok c.nrBdds (s, append c (encodeAll s.cells c.ins.length L)) := by
  obtain ⟨post, e1, hl, hpo, hlast⟩ := nodesPostorder_ok (cfg := cfg) hi hp (Or.inl h2)
  have ht := TopoList.of_post hl hpo (hlast h2)
  refine ⟨post.reverse, ht, ?_⟩
  generalize hL : post.reverse = L at ht
  have hlive : ∀ q ∈ L, 2 ≤ q ∧ (s.cells q).live = true := fun q hq => ⟨ht.two hq, ht.live hi hp hq⟩
  have hne : L ≠ [] := by
    intro e; have := ht.head; rw [e] at this; cases this
  obtain ⟨m, e2, hm⟩ := addNodes_ok (cfg := cfg) hi L c hlive
  obtain ⟨q, hq⟩ : ∃ q, L.getLast? = some q := ⟨_, List.getLast?_eq_some_getLast hne⟩
  have hqm : q ∈ L := List.mem_of_getLast? hq
  obtain ⟨tq, htq⟩ := (hi.node q (hlive q hqm).1 (hlive q hqm).2).2.2
  obtain ⟨r, e3, _⟩ := findBddMgr_ok (cfg := cfg) hi htq
  unfold addBdd
  rw [M.get_bind_apply, M.assert_bind_apply (by simp [hc.last])]
  have e1' : onM (nodesPostorder cfg p) (s, c) = .ok post (s, c) := by unfold onM; simp only [e1]
  rw [M.bind_ok e1']
  simp only [hL]
  rw [M.bind_ok e2]
  simp only [hq]
  have e3' : ∀ c, onM (findBddMgr cfg q) (s, c) = .ok r (s, c) := by intro c; unfold onM; simp only [e3]
  rw [M.bind_ok (e3' _)]
  refine Eq.trans (M.bind_ok (a := ()) rfl) ?_
  rw [M.bind_ok (e3' _)]
  refine Eq.trans (M.bind_ok (a := ()) rfl) ?_
  have hback : c.del.getLast? = some c.ins.length := hc.last
  refine Eq.trans (M.bind_ok (a := c.ins.length) (s' := (s, { c with
      nrh := insertNew (insertNew m botId (c.ins ++ L.map (rawInstr s.cells)).length) topId
        ((c.ins ++ L.map (rawInstr s.cells)) ++ [botInstr]).length,
      ins := ((c.ins ++ L.map (rawInstr s.cells)) ++ [botInstr]) ++ [topInstr] })) ?_) ?_
  · unfold onC dlmBack; simp only [hback]
  have hlk : ∀ q, q < 2 ∨ q ∈ L → (insertNew (insertNew m botId (c.ins ++ L.map (rawInstr s.cells)).length) topId
        ((c.ins ++ L.map (rawInstr s.cells)) ++ [botInstr]).length).lookup q = some (posIn c.ins.length L q) := by
    intro q hq
    rw [insertNew_lookup, insertNew_lookup, hm, hc.nrh]
    unfold posIn
    rcases hq with hq | hq
    · have : q ∉ L := fun h => by have := ht.two h; omega
      have : q = 0 ∨ q = 1 := by omega
      rcases this with rfl | rfl
      · simp [this, botId, topId]
      · simp [this, botId, topId]; omega
    · have := ht.two hq
      simp only [hq, if_true]
      rw [if_neg (c := q < 2) (by omega)]; simp
  rw [M.bind_ok (addArcs_ok hi (posIn c.ins.length L) c.ins.length [botInstr, topInstr] L 0 c.ins _
    (fun q hq => ⟨(hlive q hq).1, (hlive q hq).2, hlk _ (ht.child hq (Or.inl rfl)), hlk _ (ht.child hq (Or.inr rfl))⟩)
    (fun j q hj => by
      have hm := List.mem_of_getElem? hj
      have hx := idxOf_of_get ht.lists.nodup hj
      have k1 := posIn_child (N := c.ins.length) ht hm (Or.inl rfl)
      have k2 := posIn_child (N := c.ins.length) ht hm (Or.inr rfl)
      omega) rfl (by simp))]
  have hfin : (append c (encodeAll s.cells c.ins.length L)) = { c with
      ins := c.ins ++ L.map (fun q => ⟨posIn c.ins.length L (s.cells q).lo, posIn c.ins.length L (s.cells q).hi, (s.cells q).index⟩) ++ [botInstr, topInstr],
      del := c.del ++ [(c.ins ++ L.map (fun q => (⟨posIn c.ins.length L (s.cells q).lo, posIn c.ins.length L (s.cells q).hi, (s.cells q).index⟩ : Instr)) ++ [botInstr, topInstr]).length], nrh := [] } := by
    unfold append encodeAll
    rw [show c.nrh = [] from hc.nrh.symm ▸ rfl]
    simp only [List.length_append, List.length_map, List.length_cons, List.length_nil, List.append_assoc]
    rfl
  refine Eq.trans (M.bind_ok (a := ()) (s' := (s, append c (encodeAll s.cells c.ins.length L))) ?_) ?_
  · rw [hfin]; rfl
  rw [M.get_bind_apply]
  have hlen : (append c (encodeAll s.cells c.ins.length L)).del.length - 2 = c.nrBdds := by
    obtain ⟨_, h2⟩ := getLast_length_del hc
    simp [append]; omega
  simp only [hlen]
  have hwf := enc_wf (c := c) hi hp ht
  have hent := append_entry (xs := encodeAll s.cells c.ins.length L) hc
  rw [M.assert_bind_apply (isBdd_ok hent hwf (fun i j e a _ b _ hin h1 h2 => enc_nodup hi hp ht i j e a b hin h1 h2))]
  cases hnd : cfg.ndebug with
  | true =>
    simp only [if_true]
    rfl
  | false =>
    simp only [Bool.false_eq_true, if_false]
    have hk : cNrNodes cfg c.nrBdds (append c (encodeAll s.cells c.ins.length L)) = .ok (L.length + 2) (append c (encodeAll s.cells c.ins.length L)) := by
      unfold cNrNodes
      rw [M.get_bind_apply, M.assert_bind_apply (by rw [append_nrBdds hc]; simp)]
      have d1 : dlm (c.nrBdds + 1) (append c (encodeAll s.cells c.ins.length L)) = .ok (c.ins.length + (L.length + 2)) (append c (encodeAll s.cells c.ins.length L)) := by
        unfold dlm; rw [hent.2, encodeAll_length]
      have d0 : dlm c.nrBdds (append c (encodeAll s.cells c.ins.length L)) = .ok c.ins.length (append c (encodeAll s.cells c.ins.length L)) := by
        unfold dlm; rw [hent.1]
      rw [M.bind_ok d1, M.bind_ok d0]
      show Res.ok _ _ = _
      congr 1; omega
    have hk' : onC (cNrNodes cfg c.nrBdds) (s, append c (encodeAll s.cells c.ins.length L)) =
        .ok (L.length + 2) (s, append c (encodeAll s.cells c.ins.length L)) := by
      unfold onC; simp only [hk]
    rw [M.bind_ok hk', M.assert_bind_apply (by simp)]
    rfl

end
end LBDD
