import Verif.Props.Query
import Verif.Proof.Order
/-!
# The exact orders of the traversals (C25, C26, C58)

The order in which a traversal lists shared nodes is what a caller pairs with other per-node data, so it is pinned down here: unfold the BDD to a
tree, list the tree in the standard order, keep the first occurrence of every node.
-/
namespace LBDD
section
variable {cfg : Cfg} {u : Use} {a : Api} {p : Nat}

/-- C25: `nodes_postorder()` is the post-order of the unfolded BDD (low subtree, high subtree, node) with later repetitions dropped. -/
theorem C25_exact (hR : Reachable cfg u a) (hp : a.Holds p) (hs : SinkOk cfg ∨ 2 ≤ p) :
    ∃ w, Unfolds a.mgr.cells true p w ∧ nodesPostorder cfg p a.mgr = .ok w.eraseDups a.mgr := by
  obtain ⟨t, ht⟩ := hR.good.any hp
  obtain ⟨w, hw⟩ := Unfolds.exists true ht
  have hi := hR.good
  have hlv : ∀ q, 2 ≤ q → Reaches a.mgr.cells p q → a.mgr.marks q = false := fun q h2 hr => hi.mark q h2 (hr.live_or hi ht)
  obtain ⟨l, e, hl, _⟩ := nodesPostorder_ok hi ht (.of hi hs)
  obtain ⟨l', s1, e1, e2, h, _⟩ := visit_unmark hi true ht
  have := visit_order hi true (fuel1 a.mgr) p t w ht (by have := hi.ht _ _ ht; unfold fuel1; omega) hw a.mgr.marks (fun h2 => hlv p h2 (.refl _))
    (fun q r hr q2 hq _ _ => by rw [hlv q q2 hr] at hq; cases hq) l' s1 e1
  have hf : w.filter (fun q => !a.mgr.marks q) = w := by
    rw [List.filter_eq_self]
    intro q hq
    obtain ⟨q2, qr⟩ := hw.reaches ht q hq
    simp [hlv q q2 qr]
  rw [hf] at this
  refine ⟨w, hw, ?_⟩
  unfold nodesPostorder
  rw [M.get_bind_apply, M.bind_ok (getMark_ok a.mgr p), markAssert hi ht (.of hi hs), M.bind_ok e1, M.bind_ok e2,
    M.bind_ok (assertCount_ok hi ht (.of hi hs) h), this]
  rfl

theorem Unfolds.unique {c : Nat → Cell} {post : Bool} {w w' : List Nat} (h : Unfolds c post p w) (h' : Unfolds c post p w') : w = w' := by
  induction h generalizing w' with
  | sink hp => cases h' with
    | sink _ => rfl
    | node h _ _ => omega
  | node hp _ _ ih1 ih2 => cases h' with
    | sink _ => omega
    | node _ h1 h2 => rw [ih1 h1, ih2 h2]

/-- C58: `print()` writes the two arcs of every node, low before high, the nodes in pre-order of the unfolded BDD with later repetitions dropped. -/
theorem C58_print_exact (hR : Reachable cfg u a) (hp : a.Holds p) :
    ∃ w, Unfolds a.mgr.cells false p w ∧
      printArcs cfg p a.mgr = .ok (w.eraseDups.flatMap fun q => [(q, false, (a.mgr.cells q).lo), (q, true, (a.mgr.cells q).hi)]) a.mgr := by
  obtain ⟨t, ht⟩ := hR.good.any hp
  obtain ⟨w, hw⟩ := Unfolds.exists false ht
  have hi := hR.good
  have hlv : ∀ q, 2 ≤ q → Reaches a.mgr.cells p q → a.mgr.marks q = false := fun q h2 hr => hi.mark q h2 (hr.live_or hi ht)
  obtain ⟨l', s1, e1, e2, h, _⟩ := visit_unmark hi false ht
  have := visit_order hi false (fuel1 a.mgr) p t w ht (by have := hi.ht _ _ ht; unfold fuel1; omega) hw a.mgr.marks (fun h2 => hlv p h2 (.refl _))
    (fun q r hr q2 hq _ _ => by rw [hlv q q2 hr] at hq; cases hq) l' s1 e1
  have hf : w.filter (fun q => !a.mgr.marks q) = w := by
    rw [List.filter_eq_self]
    intro q hq
    obtain ⟨q2, qr⟩ := hw.reaches ht q hq
    simp [hlv q q2 qr]
  rw [hf] at this
  refine ⟨w, hw, ?_⟩
  unfold printArcs
  rw [M.get_bind_apply, M.bind_ok e1, M.bind_ok e2, this]
  rfl

/-- C26: `nodes_bfs()` is the list that starts with the root and continues with the inner children of its own elements in turn, low before high,
repetitions dropped: the queue discipline of breadth-first search. -/
theorem C26_exact (hR : Reachable cfg u a) (hp : a.Holds p) (p2 : 2 ≤ p) :
    ∃ l, nodesBfs cfg p a.mgr = .ok l a.mgr ∧ l = (p :: l.flatMap (innerChildren a.mgr.cells)).eraseDups := by
  obtain ⟨t, ht⟩ := hR.good.any hp
  have hi := hR.good
  obtain ⟨l, e, _⟩ := nodesBfs_ok hi ht p2
  refine ⟨l, e, ?_⟩
  have pl := hi.live_of ht
  unfold nodesBfs at e
  rw [M.get_bind_apply, M.bind_ok (getMark_ok a.mgr p), markAssert hi ht (Or.inl p2), M.bind_ok (setMark_ok a.mgr p true)] at e
  obtain ⟨l1, s1, e1, e⟩ := bind_ok_inv e
  obtain ⟨_, s2, e2, e⟩ := bind_ok_inv e
  obtain ⟨_, s3, e3, e⟩ := bind_ok_inv e
  have : l1 = l := by cases e; rfl
  subst this
  refine bfsLoop_order hi ht _ [p] [] _ _ _ ?_ ?_ (by rfl) e1
  · intro q hq
    simp only [List.nil_append, List.mem_singleton] at hq
    subst hq; exact ⟨p2, .refl _⟩
  · intro q q2 ql
    by_cases h : q = p
    · subst h; simp
    · rw [upd_ne _ _ h, hi.mark q q2 (ql.live_or hi ht)]; simp [h]

theorem nodup_eraseDups : ∀ (n : Nat) (l : List Nat), l.length ≤ n → l.eraseDups.Nodup
  | _, [], _ => by simp
  | 0, x :: l, h => by simp at h
  | n + 1, x :: l, h => by
    rw [List.eraseDups_cons, List.nodup_cons]
    refine ⟨?_, nodup_eraseDups n _ (Nat.le_trans (List.length_filter_le _ _) (by simpa using h))⟩
    rw [List.mem_eraseDups]
    simp

theorem prefix_of_eraseDups {A B : List Nat} : A.eraseDups <+: (A ++ B).eraseDups := by
  rw [List.eraseDups_append]; exact List.prefix_append _ _

/-- That equation, together with "every node but the root comes after one of its parents" (`C26_nodes_bfs`), leaves only one list. -/
theorem C26_order_unique {c : Nat → Cell} {l l' : List Nat} (e : l = (p :: l.flatMap (innerChildren c)).eraseDups)
    (e' : l' = (p :: l'.flatMap (innerChildren c)).eraseDups)
    (h : ∀ l1 q l2, l = l1 ++ q :: l2 → q = p ∨ ∃ x ∈ l1, q ∈ innerChildren c x)
    (h' : ∀ l1 q l2, l' = l1 ++ q :: l2 → q = p ∨ ∃ x ∈ l1, q ∈ innerChildren c x) : l = l' := by
  -- one more element of `l` is determined by the first `n`
  have grow : ∀ (l : List Nat), l = (p :: l.flatMap (innerChildren c)).eraseDups →
      (∀ l1 q l2, l = l1 ++ q :: l2 → q = p ∨ ∃ x ∈ l1, q ∈ innerChildren c x) → ∀ n, n < l.length →
      l.take (n + 1) = ((p :: (l.take n).flatMap (innerChildren c)).eraseDups).take (n + 1) ∧
      n < ((p :: (l.take n).flatMap (innerChildren c)).eraseDups).length := by
    intro l e h n hn
    have hnd : l.Nodup := by rw [e]; exact nodup_eraseDups _ _ (Nat.le_refl _)
    have hpre : (p :: (l.take n).flatMap (innerChildren c)).eraseDups <+: l := by
      have h1 : p :: l.flatMap (innerChildren c) = (p :: (l.take n).flatMap (innerChildren c)) ++ (l.drop n).flatMap (innerChildren c) := by
        rw [List.cons_append, ← List.flatMap_append, List.take_append_drop]
      have := prefix_of_eraseDups (A := p :: (l.take n).flatMap (innerChildren c)) (B := (l.drop n).flatMap (innerChildren c))
      rw [← h1, ← e] at this
      exact this
    generalize hD : (p :: (l.take n).flatMap (innerChildren c)).eraseDups = D at hpre
    have hsplit : l = l.take n ++ l[n] :: l.drop (n + 1) := by simp
    have hmem : l[n] ∈ D := by
      rw [← hD, List.mem_eraseDups]
      rcases h _ _ _ hsplit with h | ⟨x, hx, h⟩
      · rw [h]; simp
      · exact List.mem_cons_of_mem _ (List.mem_flatMap.2 ⟨x, hx, h⟩)
    obtain ⟨E, hE⟩ := hpre
    have hlen : n < D.length := by
      rcases Nat.lt_or_ge n D.length with h | h
      · exact h
      · exfalso
        obtain ⟨i, hi, hx⟩ := List.getElem_of_mem hmem
        have hil : i < l.length := by omega
        have h2 : l[i] = l[n] := by
          rw [← hx]
          have : (D ++ E)[i]'(by rw [hE]; exact hil) = D[i] := List.getElem_append_left hi
          rw [← this]; simp only [hE]
        have := (List.getElem_inj hnd).1 h2
        omega
    refine ⟨?_, hlen⟩
    rw [← hE, List.take_append_of_le_length (by omega)]
  have main : ∀ n, n ≤ l.length → n ≤ l'.length ∧ l.take n = l'.take n := by
    intro n
    induction n with
    | zero => intro _; exact ⟨Nat.zero_le _, rfl⟩
    | succ n ih =>
      intro hn
      obtain ⟨h1, h2⟩ := ih (by omega)
      obtain ⟨g1, g2⟩ := grow l e h n (by omega)
      have hn' : n < l'.length := by
        rcases Nat.lt_or_ge n l'.length with h | hge
        · exact h
        · exfalso
          have ht : l'.take n = l' := List.take_of_length_le hge
          rw [h2, ht, ← e'] at g2
          omega
      obtain ⟨g3, _⟩ := grow l' e' h' n hn'
      exact ⟨hn', by rw [g1, g3, h2]⟩
  have main' : ∀ n, n ≤ l'.length → n ≤ l.length := by
    intro n
    induction n with
    | zero => intro _; exact Nat.zero_le _
    | succ n ih =>
      intro hn
      rcases Nat.lt_or_ge n l.length with hlt | hge
      · exact hlt
      · exfalso
        have hle := ih (by omega)
        obtain ⟨g1, g2⟩ := grow l' e' h' n (by omega)
        have ht : l.take n = l := List.take_of_length_le hge
        rw [← (main n hle).2, ht, ← e] at g2
        omega
  have hl : l.length = l'.length := Nat.le_antisymm (main _ (Nat.le_refl _)).1 (main' _ (Nat.le_refl _))
  have := (main _ (Nat.le_refl _)).2
  rw [List.take_length, hl, List.take_length] at this
  exact this

end

theorem unfolds_shared {c : Nat → Cell} (e1 : (c 9).lo = 4) (e2 : (c 9).hi = 8) (e3 : (c 8).lo = 4) (e4 : (c 8).hi = 1) (e5 : (c 4).lo = 0)
    (e6 : (c 4).hi = 1) : Unfolds c true 9 [4, 4, 8, 9] ∧ Unfolds c false 9 [9, 4, 8, 4] := by
  have u4 : ∀ post, Unfolds c post 4 [4] := by
    intro post
    have := Unfolds.node (c := c) (post := post) (p := 4) (by decide) (.sink (by rw [e5]; decide)) (.sink (by rw [e6]; decide))
    cases post <;> exact this
  have u0 : ∀ post, Unfolds c post (c 8).hi [] := fun post => .sink (by rw [e4]; decide)
  constructor
  · have u8 : Unfolds c true 8 [4, 8] := .node (l := [4]) (h := []) (by decide) (by rw [e3]; exact u4 _) (u0 _)
    exact .node (l := [4]) (h := [4, 8]) (by decide) (by rw [e1]; exact u4 _) (by rw [e2]; exact u8)
  · have u8 : Unfolds c false 8 [8, 4] := .node (l := [4]) (h := []) (by decide) (by rw [e3]; exact u4 _) (u0 _)
    exact .node (l := [4]) (h := [8, 4]) (by decide) (by rw [e1]; exact u4 _) (by rw [e2]; exact u8)

/-- The exact orders on the demo state: (x0 ∧ x1) ∨ x2 has root 9 with low child 4 (x2) and high child 8 (x1 ∨ x2), whose low child is 4 again. -/
example : Unfolds (demo .ordered).mgr.cells true 9 [4, 4, 8, 9] ∧ [4, 4, 8, 9].eraseDups = [4, 8, 9] ∧
    Unfolds (demo .ordered).mgr.cells false 9 [9, 4, 8, 4] := by
  have h := unfolds_shared (c := (demo .ordered).mgr.cells) (by decide +kernel) (by decide +kernel) (by decide +kernel) (by decide +kernel)
    (by decide +kernel) (by decide +kernel)
  exact ⟨h.1, by decide, h.2⟩

example : ([9, 4, 8] : List Nat) = (9 :: [9, 4, 8].flatMap (innerChildren (demo .ordered).mgr.cells)).eraseDups := by decide +kernel

end LBDD
