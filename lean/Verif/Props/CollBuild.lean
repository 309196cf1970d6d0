import Verif.Spec.CollBuild
import Verif.Props.CollOrVar
/-!
# Building entries by hand (C52)
-/
namespace LBDD
section
variable {cfg : Cfg} {c : Coll}

/-- The collection after `new_bdd` and further instructions `xs`. -/
def opened (c : Coll) (xs : List Instr) : Coll := { c with ins := c.ins ++ xs, del := c.del ++ [c.ins.length] }

theorem opened_nr (hc : CInv c) (xs : List Instr) : (opened c xs).del.length = c.nrBdds + 2 := by
  have := (getLast_length_del hc).2
  simp [opened]; omega

theorem opened_entry (hc : CInv c) (xs : List Instr) : (opened c xs).Entry c.nrBdds c.ins.length c.ins.length := by
  obtain ⟨h1, h2⟩ := getLast_length_del hc
  refine ⟨?_, ?_⟩
  · show (c.del ++ _)[_]? = _
    rw [List.getElem?_append_left (by omega)]; exact h1
  · show (c.del ++ _)[_]? = _
    rw [List.getElem?_append_right (by omega), h2]; simp

theorem ndebug_assert_bind {α : Type} {b : Bool} {f : Unit → M Coll α} {s : Coll} : (M.assert true b >>= f) s = f () s := by
  cases b <;> rfl

theorem newBdd_ok (hc : CInv c) : newBdd c = .ok c.nrBdds (opened c []) := by
  have := opened_nr hc []
  unfold newBdd
  rw [M.modify_bind, M.get_bind_apply]
  show Res.ok _ _ = _
  have e : ({ c with del := c.del ++ [c.ins.length] } : Coll) = opened c [] := by simp [opened]
  rw [e, this]
  rfl

theorem bMkNode_ok (hc : CInv c) (hd : cfg.ndebug = true) (xs : List Instr) (i : Nat) : mkNode cfg c.nrBdds i (opened c xs) = .ok i (opened c xs) := by
  have he := opened_entry hc xs
  unfold mkNode
  rw [M.bind_ok (dlm_ok1 he), M.bind_ok (dlm_ok0 he), hd]
  rfl

theorem bMkEntry_ok (hd : cfg.ndebug = true) (nr : Nat) : mkEntry cfg nr c = .ok () c := by
  unfold mkEntry
  rw [M.get_bind_apply]
  simp [M.assert, hd]

theorem entryNode_ok (hc : CInv c) (hd : cfg.ndebug = true) (xs : List Instr) (k : Nat) :
    entryNode cfg c.nrBdds k (opened c xs) = .ok ⟨c.ins.length + k, c.nrBdds, true⟩ (opened c xs) := by
  unfold entryNode
  rw [M.bind_ok (bMkEntry_ok hd _), M.bind_ok (dlm_ok0 (opened_entry hc xs)), M.bind_ok (bMkNode_ok hc hd xs _)]
  rfl

def bBlank (n : BNode) : Instr := ⟨cUndef, cUndef, n.var⟩

theorem addBNodes_ok (hc : CInv c) (hd : cfg.ndebug = true) : ∀ (l : List BNode) (xs : List Instr),
    addBNodes cfg l (opened c xs) = .ok () (opened c (xs ++ l.map bBlank))
  | [], xs => by simp [addBNodes]; rfl
  | n :: l, xs => by
    unfold addBNodes
    have e : addBddNode cfg n.var (opened c xs) = .ok ⟨c.ins.length + xs.length, c.nrBdds, false⟩ (opened c (xs ++ [bBlank n])) := by
      unfold addBddNode
      rw [M.modify_bind]
      have e1 : ({ opened c xs with ins := (opened c xs).ins ++ [⟨cUndef, cUndef, n.var⟩] } : Coll) = opened c (xs ++ [bBlank n]) := by
        simp [opened, bBlank]
      rw [e1, M.get_bind_apply, opened_nr hc, M.bind_ok (bMkEntry_ok hd _)]
      simp only [Nat.add_sub_cancel]
      rw [M.bind_ok (bMkNode_ok hc hd _ _)]
      show Res.ok (CNode.mk ((c.ins ++ (xs ++ [bBlank n])).length - 1) _ _) _ = _
      simp [← Nat.add_assoc]
    rw [M.bind_ok e, addBNodes_ok hc hd l]
    simp

/-- Position an arc leads to. -/
def bArcPos (N : Nat) : BArc → Nat
  | .zero => N - 2
  | .one => N - 1
  | .node k => N + k

def bEncode (N : Nat) (n : BNode) : Instr := ⟨bArcPos N n.lo, bArcPos N n.hi, n.var⟩

theorem setArc_ok {h : CNode} (ha : h.alive = true) {e : Instr} (he : c.ins[h.i]? = some e) (b : Bool) (t : Nat) :
    setArc h b t c = .ok () { c with ins := c.ins.set h.i (if b then { e with hi := t } else { e with lo := t }) } := by
  unfold setArc
  simp only [ha, Bool.not_true, Bool.false_eq_true, if_false]
  rw [M.bind_ok (insAt_ok he)]
  rfl

theorem opened_get (xs ys : List Instr) (e : Instr) : (opened c (xs ++ e :: ys)).ins[c.ins.length + xs.length]? = some e := by
  show (c.ins ++ (xs ++ e :: ys))[_]? = _
  rw [List.getElem?_append_right (by omega), List.getElem?_append_right (by omega)]
  simp

theorem opened_set (xs ys : List Instr) (e e' : Instr) :
    ({ opened c (xs ++ e :: ys) with ins := (opened c (xs ++ e :: ys)).ins.set (c.ins.length + xs.length) e' } : Coll) = opened c (xs ++ e' :: ys) := by
  have : (opened c (xs ++ e :: ys)).ins.set (c.ins.length + xs.length) e' = c.ins ++ (xs ++ e' :: ys) := by
    show (c.ins ++ (xs ++ e :: ys)).set _ _ = _
    rw [List.set_append_right _ _ (by omega), List.set_append_right _ _ (by omega)]
    simp
  rw [this]
  rfl

theorem setBArc_ok (hc : CInv c) (hd : cfg.ndebug = true) (h2 : 2 ≤ c.ins.length) (xs ys : List Instr) (e : Instr) (b : Bool) (a : BArc) :
    setBArc cfg c.nrBdds xs.length b a (opened c (xs ++ e :: ys)) =
      .ok () (opened c (xs ++ (if b then { e with hi := bArcPos c.ins.length a } else { e with lo := bArcPos c.ins.length a }) :: ys)) := by
  have sink : ∀ s : Bool, setSinkArc cfg ⟨c.ins.length + xs.length, c.nrBdds, true⟩ b s (opened c (xs ++ e :: ys)) =
      .ok () (opened c (xs ++ (if b then { e with hi := c.ins.length - (if s then 1 else 2) } else { e with lo := c.ins.length - (if s then 1 else 2) }) :: ys)) := by
    intro s
    unfold setSinkArc
    simp only [Bool.not_true, Bool.false_eq_true, if_false]
    rw [M.bind_ok (dlm_ok1 (opened_entry hc _)), M.bind_ok (bMkNode_ok hc hd _ _), M.get_bind_apply, hd, ndebug_assert_bind,
      setArc_ok (h := ⟨c.ins.length + xs.length, c.nrBdds, true⟩) rfl (opened_get xs ys e), opened_set]
    have : subSz c.ins.length (if s = true then 1 else 2) = c.ins.length - (if s then 1 else 2) := by
      unfold subSz
      cases s
      · simp only [Bool.false_eq_true, if_false]; rw [if_neg (by omega)]
      · simp only [if_true]; rw [if_neg (by omega)]
    rw [this]
  cases a with
  | zero => simp only [setBArc]; rw [M.bind_ok (entryNode_ok hc hd _ _), sink]; rfl
  | one => simp only [setBArc]; rw [M.bind_ok (entryNode_ok hc hd _ _), sink]; rfl
  | node k =>
    simp only [setBArc]
    rw [M.bind_ok (entryNode_ok hc hd _ _), M.bind_ok (entryNode_ok hc hd _ _)]
    unfold setNodeArc
    rw [setArc_ok (h := ⟨c.ins.length + xs.length, c.nrBdds, true⟩) rfl (opened_get xs ys e), opened_set]
    rfl

theorem setBArcs_ok (hc : CInv c) (hd : cfg.ndebug = true) (h2 : 2 ≤ c.ins.length) : ∀ (l : List BNode) (xs : List Instr),
    setBArcs cfg c.nrBdds xs.length l (opened c (xs ++ l.map bBlank)) = .ok () (opened c (xs ++ l.map (bEncode c.ins.length)))
  | [], xs => by simp [setBArcs]; rfl
  | n :: l, xs => by
    unfold setBArcs
    simp only [List.map_cons]
    rw [M.bind_ok (setBArc_ok hc hd h2 _ _ _ _ _), M.bind_ok (setBArc_ok hc hd h2 _ _ _ _ _)]
    have := setBArcs_ok hc hd h2 l (xs ++ [bEncode c.ins.length n])
    simp only [List.length_append, List.length_cons, List.length_nil, Nat.zero_add, List.append_assoc, List.singleton_append] at this
    simp only [if_true, Bool.false_eq_true, if_false]
    exact this

/-- `close_bdd` appends the sinks and nothing else, whatever the arcs of the new nodes are, if the collection has another entry. -/
theorem closeBdd_ok (hc : CInv c) (h2 : 2 ≤ c.ins.length) (xs : List Instr) :
    closeBdd cfg (opened c xs) = .ok () (append c (xs ++ [topInstr, botInstr])) := by
  unfold closeBdd
  rw [M.modify_bind]
  have e1 : ({ opened c xs with ins := (opened c xs).ins ++ [topInstr, botInstr] } : Coll) = opened c (xs ++ [topInstr, botInstr]) := by
    simp [opened]
  have he := opened_entry hc (xs ++ [topInstr, botInstr])
  have hl := opened_nr hc (xs ++ [topInstr, botInstr])
  rw [e1, M.get_bind_apply, if_neg (by omega), hl]
  have h3 : dlm (c.nrBdds + 2 - 1) (opened c (xs ++ [topInstr, botInstr])) = .ok c.ins.length (opened c (xs ++ [topInstr, botInstr])) := dlm_ok1 he
  rw [show c.nrBdds + 2 - 2 = c.nrBdds by omega, M.bind_ok (dlm_ok0 he), M.bind_ok h3]
  have h4 : subSz c.ins.length 2 ≤ c.ins.length := by unfold subSz; rw [if_neg (by omega)]; omega
  have h5 : ∀ (n : Nat), closeLoop cfg c.ins.length (subSz c.ins.length 2) n c.ins.length (opened c (xs ++ [topInstr, botInstr])) =
      .ok () (opened c (xs ++ [topInstr, botInstr])) := by
    intro n
    cases n with
    | zero => unfold closeLoop; rw [if_neg (by omega)]; rfl
    | succ n => unfold closeLoop; rw [if_neg (by omega)]; rfl
  rw [M.bind_ok (h5 _)]
  show Res.ok () _ = _
  congr 1
  simp only [opened, append, List.length_append, List.length_cons, List.length_nil, Nat.add_sub_cancel]
  congr 1
  rw [List.set_append_right _ _ (by omega)]
  simp

/-- Length of the walk from an arc, at most. -/
def arcRank (n : Nat) : BArc → Nat
  | .node k => n - k + 1
  | _ => 1

theorem build_eval {l : List BNode} (hf : BForward l) (hv : ∀ n ∈ l, n.var < cBot) {C : Coll} {N : Nat} {a b : Instr}
    (hb : C.ins[N - 2]? = some b) (hbi : b.index = cBot) (ha : C.ins[N - 1]? = some a) (hai : a.index = cTop)
    (hn : ∀ (k : Nat) (n : BNode), l[k]? = some n → C.ins[N + k]? = some (bEncode N n)) {x : List Bool} {arc : BArc} {r : Bool} (hr : BEval l x arc r) :
    ∀ m, arcRank l.length arc ≤ m → cEvalLoop cfg C x m (bArcPos N arc) = .ok r () := by
  have hne := cBot_ne_cTop
  induction hr with
  | zero =>
    intro m hm
    obtain ⟨m, rfl⟩ : ∃ k, m = k + 1 := ⟨m - 1, by simp only [arcRank] at hm; omega⟩
    simp [cEvalLoop, bArcPos, hb, Instr.isTop, Instr.isBot, hbi, hne]
  | one =>
    intro m hm
    obtain ⟨m, rfl⟩ : ∃ k, m = k + 1 := ⟨m - 1, by simp only [arcRank] at hm; omega⟩
    simp [cEvalLoop, bArcPos, ha, Instr.isTop, hai]
  | @node k n b v h1 h3 h4 ih =>
    intro m hm
    simp only [arcRank] at hm
    obtain ⟨m, rfl⟩ : ∃ k, m = k + 1 := ⟨m - 1, by omega⟩
    have hlt := hv n (List.mem_of_getElem? h1)
    have hkl := lt_of_get h1
    have hin : (bEncode N n).Inner := Instr.inner_of_lt hlt
    unfold cEvalLoop
    simp only [bArcPos, hn k n h1]
    have t1 : (bEncode N n).isTop = false := by simpa [Instr.isTop] using hin.2
    have t2 : (bEncode N n).isBot = false := by simpa [Instr.isBot] using hin.1
    have t3 : (bEncode N n).index = n.var := rfl
    rw [t1, t2, t3, h3]
    simp only [Bool.false_eq_true, if_false]
    have hm' : arcRank l.length (if v = true then n.hi else n.lo) ≤ m := by
      cases hv' : (if v = true then n.hi else n.lo) with
      | zero => simp only [arcRank]; omega
      | one => simp only [arcRank]; omega
      | node k' =>
        have := hf k n k' h1 (by cases v <;> simp_all)
        simp only [arcRank]; omega
    have := ih m hm'
    cases v <;> exact this

/-- C52, for release builds, arcs set through `collection[nr][k]`, and a collection whose last entry stores its false sink before its true sink (as `add_bdd`
does): the new entry evaluates to what its arcs describe; the other entries keep their numbers and contents. -/
theorem C52_build_partial (hC : CReachable cfg c) (hd : cfg.ndebug = true) {b : Instr} (h2 : 2 ≤ c.ins.length) (hb : c.ins[c.ins.length - 2]? = some b)
    (hbi : b.index = cBot) {l : List BNode} (hne : l ≠ []) (hf : BForward l) (hv : ∀ n ∈ l, n.var < cBot) :
    ∃ c', buildEntry cfg l c = .ok c.nrBdds c' ∧ c'.nrBdds = c.nrBdds + 1 ∧ (∀ k, k < c.nrBdds → SameEntry c k c' k) ∧
      ∀ x r, BEval l x (.node 0) r → cEvaluate cfg c' c.nrBdds x = .ok r () := by
  have hc := hC.inv
  refine ⟨append c (l.map (bEncode c.ins.length) ++ [topInstr, botInstr]), ?_, append_nrBdds hc, fun k hk => append_same hc hk, fun x r hr => ?_⟩
  · unfold buildEntry
    rw [M.bind_ok (newBdd_ok hc), M.bind_ok (addBNodes_ok hc hd l []), List.nil_append]
    have e := setBArcs_ok hc hd h2 l []
    simp only [List.nil_append, List.length_nil] at e
    rw [M.bind_ok e, M.bind_ok (closeBdd_ok hc h2 _)]
    rfl
  · obtain ⟨a, ha, hai⟩ : ∃ a, c.ins[c.ins.length - 1]? = some a ∧ a.index = cTop := by
      obtain ⟨h1, h3⟩ := getLast_length_del hc
      have hpos : 0 < c.nrBdds := by
        rcases Nat.eq_zero_or_pos c.nrBdds with h | h
        · rw [h, hc.first] at h1; injection h1 with h1; omega
        · exact h
      obtain ⟨d0, d1, he, hw⟩ := hc.wf (c.nrBdds - 1) (by omega)
      have : d1 = c.ins.length := by
        have := he.2
        rw [show c.nrBdds - 1 + 1 = c.nrBdds by omega, h1] at this
        injection this with this; exact this.symm
      subst this
      obtain ⟨x, y, g1, g2, _, _, g3⟩ := hw.sinks
      rw [hb] at g1; cases g1
      rcases g3 with ⟨_, g3⟩ | ⟨g3, _⟩
      · exact ⟨y, g2, g3⟩
      · exact absurd (hbi.symm.trans g3) cBot_ne_cTop
    unfold cEvaluate
    have hn := append_nrBdds (xs := l.map (bEncode c.ins.length) ++ [topInstr, botInstr]) hc
    have : ¬ (append c (l.map (bEncode c.ins.length) ++ [topInstr, botInstr])).nrBdds ≤ c.nrBdds := by omega
    simp only [this, decide_false, Bool.and_false, Bool.false_eq_true, if_false, (append_entry hc).1]
    have hln : 0 < l.length := List.length_pos_iff.2 hne
    refine build_eval (arc := .node 0) (N := c.ins.length) hf hv (by rw [append_old (by omega)]; exact hb) hbi (by rw [append_old (by omega)]; exact ha) hai
      (fun k n hk => ?_) hr _ ?_
    · rw [append_new, List.getElem?_append_left (by have := lt_of_get hk; simpa using this), List.getElem?_map, hk]; rfl
    · show l.length - 0 + 1 ≤ (c.ins ++ _).length + 1
      simp; omega

/-- In debug builds no entry can be built by hand: `add_bdd_node` fails an assertion after `new_bdd`, in every collection and for every variable. -/
theorem C52_refuted_debug (hC : CReachable cfg c) (hd : cfg.ndebug = false) (v : Nat) :
    (do let _ ← newBdd; addBddNode cfg v) c = .assertFail := by
  have hc := hC.inv
  show (newBdd >>= fun _ => addBddNode cfg v) c = _
  rw [M.bind_ok (newBdd_ok hc)]
  unfold addBddNode
  rw [M.modify_bind]
  have e1 : ({ opened c [] with ins := (opened c []).ins ++ [⟨cUndef, cUndef, v⟩] } : Coll) = opened c [⟨cUndef, cUndef, v⟩] := by
    simp [opened]
  have hn := opened_nr hc [⟨cUndef, cUndef, v⟩]
  rw [e1, M.get_bind_apply, hn]
  have hm : mkEntry cfg (c.nrBdds + 2 - 2) (opened c [⟨cUndef, cUndef, v⟩]) = .ok () (opened c [⟨cUndef, cUndef, v⟩]) := by
    unfold mkEntry
    rw [M.get_bind_apply]
    have : c.nrBdds < (opened c [⟨cUndef, cUndef, v⟩]).nrBdds := by unfold Coll.nrBdds at *; omega
    simp [M.assert, this]
  rw [M.bind_ok hm]
  have he := opened_entry hc [⟨cUndef, cUndef, v⟩]
  have : mkNode cfg (c.nrBdds + 2 - 2) ((opened c [⟨cUndef, cUndef, v⟩]).ins.length - 1) (opened c [⟨cUndef, cUndef, v⟩]) = .assertFail := by
    unfold mkNode
    rw [show c.nrBdds + 2 - 2 = c.nrBdds by omega, M.bind_ok (dlm_ok1 he), M.bind_ok (dlm_ok0 he)]
    have : (opened c [⟨cUndef, cUndef, v⟩]).ins.length - 1 = c.ins.length := by simp [opened]
    rw [this]
    simp [Bind.bind, M.bind, M.assert, hd]
  simp only [Bind.bind, M.bind] at this ⊢
  rw [this]

/-- In release builds every use of the handle returned by `add_bdd_node` to set an arc is undefined behaviour. -/
theorem C52_refuted_handle (hC : CReachable cfg c) (hd : cfg.ndebug = true) (v : Nat) (b s : Bool) (t : CNode) :
    (do let _ ← newBdd; let h ← addBddNode cfg v; setNodeArc h b t) c = .ub ∧
      (do let _ ← newBdd; let h ← addBddNode cfg v; setSinkArc cfg h b s) c = .ub := by
  have hc := hC.inv
  have e := addBNodes_ok hc hd [⟨v, .zero, .zero⟩] []
  unfold addBNodes at e
  obtain ⟨h, c1, e1, _⟩ := bind_ok_inv e
  have ha : h.alive = false := by
    unfold addBddNode at e1
    rw [M.modify_bind, M.get_bind_apply] at e1
    obtain ⟨_, _, _, e1⟩ := bind_ok_inv e1
    obtain ⟨_, _, _, e1⟩ := bind_ok_inv e1
    cases e1
    rfl
  refine ⟨?_, ?_⟩
  · show (newBdd >>= fun _ => addBddNode cfg v >>= fun h => setNodeArc h b t) c = _
    rw [M.bind_ok (newBdd_ok hc), M.bind_ok e1]
    simp [setNodeArc, setArc, ha, M.ub]
  · show (newBdd >>= fun _ => addBddNode cfg v >>= fun h => setSinkArc cfg h b s) c = _
    rw [M.bind_ok (newBdd_ok hc), M.bind_ok e1]
    simp [setSinkArc, ha, M.ub]

/-- Missing arcs are not detected: in a collection with an entry, `close_bdd` succeeds after `new_bdd` and `add_bdd_node` without any arc set. -/
theorem C52_refuted_missing (hC : CReachable cfg c) (hd : cfg.ndebug = true) (h0 : 0 < c.nrBdds) (v : Nat) :
    ∃ c', (do let _ ← newBdd; let _ ← addBddNode cfg v; closeBdd cfg) c = .ok () c' ∧ c'.At c.nrBdds c.ins.length ⟨cUndef, cUndef, v⟩ := by
  have hc := hC.inv
  have h2 : 2 ≤ c.ins.length := by
    obtain ⟨d0, d1, he, hw⟩ := hc.wf 0 h0
    have := hw.two
    have := hw.len
    omega
  have e := addBNodes_ok hc hd [⟨v, .zero, .zero⟩] []
  unfold addBNodes at e
  obtain ⟨h, c1, e1, e2⟩ := bind_ok_inv e
  cases e2
  refine ⟨append c ([⟨cUndef, cUndef, v⟩] ++ [topInstr, botInstr]), ?_, ?_⟩
  · show (newBdd >>= fun _ => addBddNode cfg v >>= fun _ => closeBdd cfg) c = _
    rw [M.bind_ok (newBdd_ok hc), M.bind_ok e1]
    exact closeBdd_ok hc h2 _
  · refine ⟨_, _, append_entry hc, Nat.le_refl _, by simp, ?_⟩
    have := append_new (c := c) (xs := [⟨cUndef, cUndef, v⟩] ++ [topInstr, botInstr]) 0
    exact this
end

/-! ## Examples -/

/-- x0 ∧ x1 built by hand after the demo entries. -/
def handAnd : List BNode := [⟨0, .zero, .node 1⟩, ⟨1, .zero, .one⟩]

theorem handAnd_forward : BForward handAnd := by
  intro k n k' h h'
  have hk := lt_of_get h
  have : k = 0 ∨ k = 1 := by simp [handAnd] at hk; omega
  rcases this with rfl | rfl <;> simp [handAnd] at h <;> subst h <;> simp at h' <;> subst h' <;> simp [handAnd]

theorem handAnd_vars : ∀ n ∈ handAnd, n.var < cBot := by
  intro n hn
  simp [handAnd] at hn
  rcases hn with rfl | rfl <;> decide

theorem C52_example : ∃ c', buildEntry (envOf true) handAnd (demoC true) = .ok 4 c' ∧ cEvaluate (envOf true) c' 4 [true, true] = .ok true () ∧
    cEvaluate (envOf true) c' 4 [true, false] = .ok false () := by
  have h2 : (demoC true).ins[(demoC true).ins.length - 2]? = some botInstr := by decide +kernel
  obtain ⟨c', h1, _, _, h3⟩ := C52_build_partial (demoC_reachable true) rfl (by decide +kernel) h2 rfl (l := handAnd) (by simp [handAnd]) handAnd_forward handAnd_vars
  rw [demoC_nrBdds] at h1 h3
  refine ⟨c', h1, h3 _ _ ?_, h3 _ _ ?_⟩
  · exact .node (n := ⟨0, .zero, .node 1⟩) (v := true) rfl rfl (.node (n := ⟨1, .zero, .one⟩) (v := true) rfl rfl .one)
  · exact .node (n := ⟨0, .zero, .node 1⟩) (v := true) rfl rfl (.node (n := ⟨1, .zero, .one⟩) (v := false) rfl rfl .zero)

/-- The demo collection with the conjunction of entries 0 and 2 appended. -/
def demoAnd : Coll := match bddAnd (envOf true) 0 2 100 (demoC true) with | .ok _ c => c | _ => demoC true

theorem demoAnd_reachable : CReachable (envOf true) demoAnd := by
  unfold demoAnd
  split
  · rename_i r c e1
    refine .step (op := .and 0 2 100) (demoC_reachable true) rfl (by constructor <;> rw [demoC_nrBdds] <;> omega) ?_
    show (bddAnd (envOf true) 0 2 100 >>= fun _ => pure ()) (demoC true) = _
    rw [M.bind_ok e1]; rfl
  · exact demoC_reachable true

/-- Check that a call succeeds. -/
def okC {α : Type} (o : Res Coll α) : Bool := match o with | .ok _ _ => true | _ => false

theorem okC_sound {α : Type} {o : Res Coll α} (h : okC o = true) : ∃ a c, o = .ok a c := by
  cases o <;> first | exact ⟨_, _, rfl⟩ | cases h

/-- C52 is false in release builds: after an entry made by `bdd_and` (which stores its sinks in the other order) the constants are exchanged: the entry built
for x0 ∧ x1 evaluates to false when both are true and to true when x0 is false. -/
theorem C52_refuted_sinks : ∃ c, CReachable (envOf true) c ∧ ∃ nr c', buildEntry (envOf true) handAnd c = .ok nr c' ∧
    cEvaluate (envOf true) c' 5 [true, true] = .ok false () ∧ cEvaluate (envOf true) c' 5 [false, true] = .ok true () := by
  obtain ⟨nr, c', e⟩ := okC_sound (o := buildEntry (envOf true) handAnd demoAnd) (by decide +kernel)
  exact ⟨demoAnd, demoAnd_reachable, nr, c', e, evC_sound (by decide +kernel) e, evC_sound (by decide +kernel) e⟩

/-- As the first entry of a collection nothing can be built: with all arcs set, `close_bdd` reads past the end. -/
theorem C52_refuted_first : CReachable (envOf true) Coll.init ∧ buildEntry (envOf true) handAnd Coll.init = .ub :=
  ⟨.init, ubC_sound (by decide +kernel)⟩

end LBDD
