import Verif.Model.Depth
import Verif.Props.Demo
/-!
# The node-depth table (C53)
-/
namespace LBDD
section
variable {cfg : Cfg} {u : Use} {a a' : Api}

/-- `n` is the length of the longest path that starts at `p`, and such a path ends in a sink. -/
def Longest (cells : Nat → Cell) (p n : Nat) : Prop := (∃ q, q < 2 ∧ Path cells p q n) ∧ ∀ q m, Path cells p q m → m ≤ n

/-- Any interleaving of legal manager operations with calls of the table's functions, children first: `add_node` is called with nodes in use that are not in
the table yet and whose children are, and garbage is collected only while all nodes in the table are needed (see `C53_refuted_gc`). -/
inductive DepthReach (cfg : Cfg) (u : Use) : Api → (Nat → Option Nat) → Prop
  | init {a : Api} : Reachable cfg u a → DepthReach cfg u a (fun _ => none)
  | step {a a' : Api} {op : Op} {d : Nat → Option Nat} : DepthReach cfg u a d → (op = .gc → ∀ p, d p ≠ none → a.Kept p) → Legal cfg u a op → step cfg op a = .ok () a' →
      DepthReach cfg u a' d
  | bot {a : Api} {d : Nat → Option Nat} {t : DepthTab} : DepthReach cfg u a d → d 0 = none → addBotsink cfg 0 ⟨a.mgr, d⟩ = .ok () t →
      DepthReach cfg u a t.depth
  | top {a : Api} {d : Nat → Option Nat} {t : DepthTab} : DepthReach cfg u a d → d 1 = none → addTopsink cfg 1 ⟨a.mgr, d⟩ = .ok () t →
      DepthReach cfg u a t.depth
  | add {a : Api} {d : Nat → Option Nat} {t : DepthTab} {p n : Nat} : DepthReach cfg u a d → 2 ≤ p → (a.mgr.cells p).live = true → d p = none →
      d (a.mgr.cells p).lo ≠ none → d (a.mgr.cells p).hi ≠ none → addNode cfg p ⟨a.mgr, d⟩ = .ok n t → DepthReach cfg u a t.depth

theorem Path.of_lo {c : Nat → Cell} {p q n : Nat} (h2 : 2 ≤ p) (hl : (c p).live = true) (h : Path c (c p).lo q n) : Path c p q (n + 1) := by
  generalize hr : (c p).lo = r at h
  induction h with
  | refl => rw [← hr]; exact .lo (.refl p) h2 hl
  | lo _ g2 gl ih => exact .lo ih g2 gl
  | hi _ g2 gl ih => exact .hi ih g2 gl

theorem Path.of_hi {c : Nat → Cell} {p q n : Nat} (h2 : 2 ≤ p) (hl : (c p).live = true) (h : Path c (c p).hi q n) : Path c p q (n + 1) := by
  generalize hr : (c p).hi = r at h
  induction h with
  | refl => rw [← hr]; exact .hi (.refl p) h2 hl
  | lo _ g2 gl ih => exact .lo ih g2 gl
  | hi _ g2 gl ih => exact .hi ih g2 gl

theorem Path.first {c : Nat → Cell} {p q n : Nat} (h : Path c p q n) : (p = q ∧ n = 0) ∨ (2 ≤ p ∧ ∃ m, n = m + 1 ∧ (Path c (c p).lo q m ∨ Path c (c p).hi q m)) := by
  induction h with
  | refl => exact .inl ⟨rfl, rfl⟩
  | @lo q n h g2 gl ih =>
    rcases ih with ⟨rfl, rfl⟩ | ⟨h2, m, rfl, h | h⟩
    · exact .inr ⟨g2, 0, rfl, .inl (.refl _)⟩
    · exact .inr ⟨h2, m + 1, rfl, .inl (.lo h g2 gl)⟩
    · exact .inr ⟨h2, m + 1, rfl, .inr (.lo h g2 gl)⟩
  | @hi q n h g2 gl ih =>
    rcases ih with ⟨rfl, rfl⟩ | ⟨h2, m, rfl, h | h⟩
    · exact .inr ⟨g2, 0, rfl, .inr (.refl _)⟩
    · exact .inr ⟨h2, m + 1, rfl, .inl (.hi h g2 gl)⟩
    · exact .inr ⟨h2, m + 1, rfl, .inr (.hi h g2 gl)⟩

theorem Repr.longest {c : Nat → Cell} {p : Nat} {t : Tree} (h : Repr c p t) : Longest c p t.height := by
  induction h with
  | bot =>
    refine ⟨⟨0, by omega, .refl 0⟩, fun q m h => ?_⟩
    rcases h.first with ⟨_, h⟩ | ⟨h, _⟩ <;> omega
  | top =>
    refine ⟨⟨1, by omega, .refl 1⟩, fun q m h => ?_⟩
    rcases h.first with ⟨_, h⟩ | ⟨h, _⟩ <;> omega
  | @node p tl th h2 hl _ _ _ ihl ihh =>
    obtain ⟨⟨q1, a1, a2⟩, a3⟩ := ihl
    obtain ⟨⟨q2, b1, b2⟩, b3⟩ := ihh
    constructor
    · rcases Nat.le_total tl.height th.height with h | h
      · exact ⟨q2, b1, by simp only [Tree.height, Nat.max_eq_right h]; exact .of_hi h2 hl b2⟩
      · exact ⟨q1, a1, by simp only [Tree.height, Nat.max_eq_left h]; exact .of_lo h2 hl a2⟩
    · intro q m h
      simp only [Tree.height]
      rcases h.first with ⟨_, h⟩ | ⟨_, m', rfl, h | h⟩
      · omega
      · have := a3 q m' h; omega
      · have := b3 q m' h; omega

theorem DepthTab.insert_none {p n : Nat} {d : DepthTab} (h : d.depth p = none) : DepthTab.insert p n d = .ok () { d with depth := upd d.depth p (some n) } := by
  unfold DepthTab.insert M.modify
  simp only [h]

theorem DepthTab.read_ok {α : Type} {m : M Mgr α} {d : DepthTab} {r : α} {s : Mgr} (h : m d.mgr = .ok r s) : DepthTab.read m d = .ok r d := by
  unfold DepthTab.read; rw [h]

theorem DepthTab.check_ok {m : M Mgr Bool} {d : DepthTab} {s : Mgr} (h : m d.mgr = .ok true s) : DepthTab.check cfg m d = .ok () d := by
  unfold DepthTab.check
  split
  · rfl
  · rw [M.bind_ok (DepthTab.read_ok h)]; rfl

theorem addNode_ok {md : Md} {refs : Nat → Nat} {s : Mgr} (hi : Inv cfg md refs s) {d : Nat → Option Nat} {p x y : Nat} (h2 : 2 ≤ p)
    (hl : (s.cells p).live = true) (hp : d p = none) (hx : d (s.cells p).lo = some x) (hy : d (s.cells p).hi = some y) :
    addNode cfg p ⟨s, d⟩ = .ok (max x y + 1) ⟨s, upd d p (some (max x y + 1))⟩ := by
  obtain ⟨n1, n2, _⟩ := hi.node p h2 hl
  have hnv := hi.nv
  have ht : (s.cells p).index < topsinkIndex := by omega
  have hb : topsinkIndex < botsinkIndex := by decide
  unfold addNode
  rw [M.get_bind_apply]
  have e1 : DepthTab.check cfg (do let t ← isTerminal cfg p; pure (!t)) ⟨s, d⟩ = .ok () ⟨s, d⟩ := by
    refine DepthTab.check_ok (s := s) ?_
    · have g1 : ((s.cells p).index == topsinkIndex) = false := by simp; omega
      have g2 : ((s.cells p).index == botsinkIndex) = false := by simp; omega
      have g3 : ((s.cells p).lo == (s.cells p).hi) = false := by simpa using n2
      have t1 : isTop cfg p s = .ok false s := by
        unfold isTop
        rw [M.get_bind_apply, M.assert_bind_apply (by simp [g1, g2, g3])]
        simp only [g1]; rfl
      have t2 : isBot cfg p s = .ok false s := by
        unfold isBot
        rw [M.get_bind_apply, M.assert_bind_apply (by simp [g1, g2, g3])]
        simp only [g2]; rfl
      have t3 : isTerminal cfg p s = .ok false s := by
        unfold isTerminal
        rw [M.bind_ok t1]
        exact t2
      rw [M.bind_ok t3]
      rfl
  rw [M.bind_ok e1]
  simp only
  rw [if_neg (by simp [hl]; omega), M.assert_bind_apply (by rw [hx]; rfl), M.assert_bind_apply (by rw [hy]; rfl), M.assert_bind_apply (by rw [hp]; rfl)]
  simp only [hx, hy]
  rw [M.bind_ok (DepthTab.insert_none hp)]
  rfl

theorem check_inner {md : Md} {refs : Nat → Nat} {s : Mgr} (hi : Inv cfg md refs s) {d : Nat → Option Nat} {p : Nat} (h2 : 2 ≤ p)
    (hl : (s.cells p).live = true) : DepthTab.check cfg (do let t ← isTerminal cfg p; pure (!t)) ⟨s, d⟩ = .ok () ⟨s, d⟩ := by
  obtain ⟨n1, n2, _⟩ := hi.node p h2 hl
  have hnv := hi.nv
  have hb : topsinkIndex < botsinkIndex := by decide
  refine DepthTab.check_ok (s := s) ?_
  have g1 : ((s.cells p).index == topsinkIndex) = false := by simp; omega
  have g2 : ((s.cells p).index == botsinkIndex) = false := by simp; omega
  have g3 : ((s.cells p).lo == (s.cells p).hi) = false := by simpa using n2
  have t1 : isTop cfg p s = .ok false s := by
    unfold isTop
    rw [M.get_bind_apply, M.assert_bind_apply (by simp [g1, g2, g3])]
    simp only [g1]; rfl
  have t2 : isBot cfg p s = .ok false s := by
    unfold isBot
    rw [M.get_bind_apply, M.assert_bind_apply (by simp [g1, g2, g3])]
    simp only [g2]; rfl
  have t3 : isTerminal cfg p s = .ok false s := by
    unfold isTerminal
    rw [M.bind_ok t1]
    exact t2
  rw [M.bind_ok t3]
  rfl

theorem addSink_ok {md : Md} {refs : Nat → Nat} {s : Mgr} (hi : Inv cfg md refs s) {d : Nat → Option Nat} :
    (d 0 = none → addBotsink cfg 0 ⟨s, d⟩ = .ok () ⟨s, upd d 0 (some 0)⟩) ∧ (d 1 = none → addTopsink cfg 1 ⟨s, d⟩ = .ok () ⟨s, upd d 1 (some 0)⟩) := by
  constructor
  · intro hd
    unfold addBotsink
    rw [M.get_bind_apply]
    have e1 : DepthTab.check cfg (isBot cfg 0) ⟨s, d⟩ = .ok () ⟨s, d⟩ := by
      refine DepthTab.check_ok (s := s) ?_
      · unfold isBot
        rw [M.get_bind_apply, M.assert_bind_apply (by rw [hi.bot.1, hi.bot.2]; simp)]
        rw [hi.bot.1]; simp; rfl
    rw [M.bind_ok e1, M.assert_bind_apply (by simp [hd])]
    exact DepthTab.insert_none hd
  · intro hd
    unfold addTopsink
    rw [M.get_bind_apply]
    have e1 : DepthTab.check cfg (isTop cfg 1) ⟨s, d⟩ = .ok () ⟨s, d⟩ := by
      refine DepthTab.check_ok (s := s) ?_
      · unfold isTop
        rw [M.get_bind_apply, M.assert_bind_apply (by rw [hi.top.1, hi.top.2]; simp)]
        rw [hi.top.1]; simp; rfl
    rw [M.bind_ok e1, M.assert_bind_apply (by simp [hd])]
    exact DepthTab.insert_none hd

theorem DepthReach.inv {d : Nat → Option Nat} (h : DepthReach cfg u a d) : Good cfg u a ∧ ∀ p n, d p = some n → ∃ t, Repr a.mgr.cells p t ∧ t.height = n := by
  induction h with
  | init h => exact ⟨h.good, fun p n e => by cases e⟩
  | step _ hne hl e ih =>
    rename_i op _ _
    by_cases hgc : op = .gc
    · obtain ⟨g, hg⟩ := step_good ih.1 hl e
      refine ⟨g, fun p n hp => ?_⟩
      obtain ⟨t, t1, t2⟩ := ih.2 p n hp
      exact ⟨t, hg.repr t1 (hne hgc p (by rw [hp]; simp)), t2⟩
    · obtain ⟨g, hg⟩ := step_grow ih.1 hl hgc e
      refine ⟨g, fun p n hp => ?_⟩
      obtain ⟨t, t1, t2⟩ := ih.2 p n hp
      exact ⟨t, t1.ext hg.cells, t2⟩
  | bot _ hd e ih =>
    rw [(addSink_ok ih.1).1 hd] at e
    cases e
    refine ⟨ih.1, fun p n hp => ?_⟩
    by_cases h : p = 0
    · subst h
      simp at hp
      exact ⟨.bot, .bot, by rw [← hp]; rfl⟩
    · simp [upd_ne _ _ h] at hp
      exact ih.2 p n hp
  | top _ hd e ih =>
    rw [(addSink_ok ih.1).2 hd] at e
    cases e
    refine ⟨ih.1, fun p n hp => ?_⟩
    by_cases h : p = 1
    · subst h
      simp at hp
      exact ⟨.top, .top, by rw [← hp]; rfl⟩
    · simp [upd_ne _ _ h] at hp
      exact ih.2 p n hp
  | @add a d t p n _ h2 hl hp hlo hhi e ih =>
    obtain ⟨x, hx⟩ := Option.ne_none_iff_exists'.1 hlo
    obtain ⟨y, hy⟩ := Option.ne_none_iff_exists'.1 hhi
    rw [addNode_ok ih.1 h2 hl hp hx hy] at e
    cases e
    refine ⟨ih.1, fun q m hq => ?_⟩
    by_cases h : q = p
    · subst h
      simp at hq
      obtain ⟨t1, a1, a2⟩ := ih.2 _ _ hx
      obtain ⟨t2, b1, b2⟩ := ih.2 _ _ hy
      have hlt : (a.mgr.cells q).index < topsinkIndex := by
        have := (ih.1.node q h2 hl).1
        have := ih.1.nv
        omega
      exact ⟨_, .node h2 hl hlt a1 b1, by rw [← hq]; simp only [Tree.height]; omega⟩
    · simp [upd_ne _ _ h] at hq
      exact ih.2 q m hq

/-- C53: whatever was recorded before, in whatever children-first order and however the manager was used in between, `add_node(p)` returns one more than
the larger depth recorded for the children, this is the length of the longest path from `p` to a sink, and it is recorded for `p`. -/
theorem C53_depth {d : Nat → Option Nat} (h : DepthReach cfg u a d) {p : Nat} (h2 : 2 ≤ p) (hl : (a.mgr.cells p).live = true) (hp : d p = none)
    (hlo : d (a.mgr.cells p).lo ≠ none) (hhi : d (a.mgr.cells p).hi ≠ none) :
    ∃ n t x y, addNode cfg p ⟨a.mgr, d⟩ = .ok n t ∧ d (a.mgr.cells p).lo = some x ∧ d (a.mgr.cells p).hi = some y ∧ n = max x y + 1 ∧
      Longest a.mgr.cells p n ∧ t.depth p = some n ∧ ∀ q, q ≠ p → t.depth q = d q := by
  obtain ⟨x, hx⟩ := Option.ne_none_iff_exists'.1 hlo
  obtain ⟨y, hy⟩ := Option.ne_none_iff_exists'.1 hhi
  have e := addNode_ok h.inv.1 h2 hl hp hx hy
  obtain ⟨t, t1, t2⟩ := (DepthReach.add h h2 hl hp hlo hhi e).inv.2 p (max x y + 1) (by simp)
  exact ⟨_, _, x, y, e, hx, hy, rfl, t2 ▸ t1.longest, by simp, fun q hq => by simp [upd_ne _ _ hq]⟩

/-- C53: every depth in the table is the length of the longest path, also after the manager was used further. -/
theorem C53_recorded {d : Nat → Option Nat} (h : DepthReach cfg u a d) {p n : Nat} (hp : d p = some n) : Longest a.mgr.cells p n := by
  obtain ⟨t, t1, t2⟩ := h.inv.2 p n hp
  exact t2 ▸ t1.longest

/-- C53: in release builds, adding a node that is in the table already returns its recorded depth again and leaves the table as it is; in debug builds it fails an
assertion. -/
theorem C53_again {d : Nat → Option Nat} (h : DepthReach cfg u a d) {p n : Nat} (h2 : 2 ≤ p) (hl : (a.mgr.cells p).live = true) (hp : d p = some n)
    (hlo : d (a.mgr.cells p).lo ≠ none) (hhi : d (a.mgr.cells p).hi ≠ none) :
    addNode cfg p ⟨a.mgr, d⟩ = if cfg.ndebug then .ok n ⟨a.mgr, d⟩ else .assertFail := by
  obtain ⟨x, hx⟩ := Option.ne_none_iff_exists'.1 hlo
  obtain ⟨y, hy⟩ := Option.ne_none_iff_exists'.1 hhi
  obtain ⟨n1, n2, _⟩ := h.inv.1.node p h2 hl
  have hnv := h.inv.1.nv
  have ht : (a.mgr.cells p).index < topsinkIndex := by omega
  have hb : topsinkIndex < botsinkIndex := by decide
  have hn : n = max x y + 1 := by
    obtain ⟨t, t1, t2⟩ := h.inv.2 p n hp
    obtain ⟨tl, l1, l2⟩ := h.inv.2 _ _ hx
    obtain ⟨th, r1, r2⟩ := h.inv.2 _ _ hy
    have := t1.fn (.node h2 hl ht l1 r1)
    subst this
    rw [← t2, ← l2, ← r2]
    simp only [Tree.height]
  unfold addNode
  rw [M.get_bind_apply]
  have e1 : DepthTab.check cfg (do let t ← isTerminal cfg p; pure (!t)) ⟨a.mgr, d⟩ = .ok () ⟨a.mgr, d⟩ := by
    refine DepthTab.check_ok (s := a.mgr) ?_
    have g1 : ((a.mgr.cells p).index == topsinkIndex) = false := by simp; omega
    have g2 : ((a.mgr.cells p).index == botsinkIndex) = false := by simp; omega
    have g3 : ((a.mgr.cells p).lo == (a.mgr.cells p).hi) = false := by simpa using n2
    have t1 : isTop cfg p a.mgr = .ok false a.mgr := by
      unfold isTop
      rw [M.get_bind_apply, M.assert_bind_apply (by simp [g1, g2, g3])]
      simp only [g1]; rfl
    have t2 : isBot cfg p a.mgr = .ok false a.mgr := by
      unfold isBot
      rw [M.get_bind_apply, M.assert_bind_apply (by simp [g1, g2, g3])]
      simp only [g2]; rfl
    have t3 : isTerminal cfg p a.mgr = .ok false a.mgr := by
      unfold isTerminal
      rw [M.bind_ok t1]
      exact t2
    rw [M.bind_ok t3]
    rfl
  rw [M.bind_ok e1]
  simp only
  rw [if_neg (by simp [hl]; omega), M.assert_bind_apply (by rw [hx]; rfl), M.assert_bind_apply (by rw [hy]; rfl)]
  cases hd : cfg.ndebug with
  | false => simp [M.assert, hp, Bind.bind, M.bind]
  | true =>
    have e3 : M.assert true (d p).isNone (⟨a.mgr, d⟩ : DepthTab) = .ok () ⟨a.mgr, d⟩ := by simp [M.assert]
    rw [M.bind_ok e3]
    simp only [hx, hy]
    have e2 : DepthTab.insert p (max x y + 1) ⟨a.mgr, d⟩ = .ok () ⟨a.mgr, d⟩ := by
      unfold DepthTab.insert M.modify
      simp [hp]
    rw [M.bind_ok e2, hn]
    rfl

end

/-- C53: the table of the demo BDD x0 ∧ x1 (nodes 3: x1, 5: x0 ∧ x1) has depths 0, 0, 1, 2. -/
example : ∃ d, DepthReach (envOf false) .ordered (demo .ordered) d ∧ d 0 = some 0 ∧ d 1 = some 0 ∧ d 3 = some 1 ∧ d 5 = some 2 := by
  have h0 : DepthReach (envOf false) .ordered (demo .ordered) (fun _ => none) := .init (demo_reachable _)
  have h1 := DepthReach.bot h0 rfl ((addSink_ok h0.inv.1).1 rfl)
  have h2 := DepthReach.top h1 rfl ((addSink_ok h1.inv.1).2 rfl)
  have c3 : ((demo .ordered).mgr.cells 3).live = true ∧ ((demo .ordered).mgr.cells 3).lo = 0 ∧ ((demo .ordered).mgr.cells 3).hi = 1 := by decide +kernel
  have c5 : ((demo .ordered).mgr.cells 5).live = true ∧ ((demo .ordered).mgr.cells 5).lo = 0 ∧ ((demo .ordered).mgr.cells 5).hi = 3 := by decide +kernel
  obtain ⟨n, t, x, y, e, b1, b2, b3, _, b4, b5⟩ := C53_depth h2 (p := 3) (by omega) c3.1 rfl (by rw [c3.2.1]; simp [upd]) (by rw [c3.2.2]; simp [upd])
  have h3 := DepthReach.add h2 (by omega) c3.1 rfl (by rw [c3.2.1]; simp [upd]) (by rw [c3.2.2]; simp [upd]) e
  rw [c3.2.1] at b1
  rw [c3.2.2] at b2
  simp [upd] at b1 b2
  have d0 : t.depth 0 = some 0 := by rw [b5 0 (by omega)]; simp [upd]
  have d1 : t.depth 1 = some 0 := by rw [b5 1 (by omega)]; simp [upd]
  have d3 : t.depth 3 = some 1 := by rw [b4, b3, ← b1, ← b2]; rfl
  have d5 : t.depth 5 = none := by rw [b5 5 (by omega)]; simp [upd]
  obtain ⟨n', t', x', y', e', b1', b2', b3', _, b4', b5'⟩ := C53_depth h3 (p := 5) (by omega) c5.1 d5 (by rw [c5.2.1, d0]; simp) (by rw [c5.2.2, d3]; simp)
  have h4 := DepthReach.add h3 (by omega) c5.1 d5 (by rw [c5.2.1, d0]; simp) (by rw [c5.2.2, d3]; simp) e'
  rw [c5.2.1, d0] at b1'
  rw [c5.2.2, d3] at b2'
  cases b1'; cases b2'
  exact ⟨t'.depth, h4, by rw [b5' 0 (by omega), d0], by rw [b5' 1 (by omega), d1], by rw [b5' 3 (by omega), d3], by rw [b4', b3']; rfl⟩

/-- Slot 0: false, slot 1: x1 (node 2), slot 2: x0 ∧ x1 made by `unique_find` (node 3). -/
def depthState (nd : Bool) : Api := stateAfter (envOf nd) .unordered [.call .botsink [], .call (.projection 1) [], .call (.uniqueFind 0) [0, 1]]

def depthOps : List Op := [.drop 2, .gc, .call (.projection 0) []]

/-- The same, after the handle to x0 ∧ x1 is destroyed, garbage is collected and x0 is made. -/
def depthState2 (nd : Bool) : Api := (runHist (envOf nd) .unordered depthOps (depthState nd)).getD (depthState nd)

theorem depthState2_run (nd : Bool) : runHist (envOf nd) .unordered depthOps (depthState nd) = some (depthState2 nd) := by
  have h : (runHist (envOf nd) .unordered depthOps (depthState nd)).isSome = true := by cases nd <;> decide +kernel
  unfold depthState2
  obtain ⟨x, hx⟩ := Option.isSome_iff_exists.1 h
  rw [hx]; rfl

/-- The table forgets nothing: when a recorded node is freed by `collect_garbage` and its memory is used for another node, here x0 in place of x0 ∧ x1, the
old depth stays recorded. `add_node` fails its assertion in debug builds; in release builds it returns the right depth, 1, and records nothing. -/
theorem C53_refuted_gc (nd : Bool) : ∃ d, DepthReach (envOf nd) .unordered (depthState nd) d ∧ d 3 = some 2 ∧
    runHist (envOf nd) .unordered depthOps (depthState nd) = some (depthState2 nd) ∧ Reachable (envOf nd) .unordered (depthState2 nd) ∧
    (depthState2 nd).Holds 3 ∧ Longest (depthState2 nd).mgr.cells 3 1 ∧
    addNode (envOf nd) 3 ⟨(depthState2 nd).mgr, d⟩ = if nd then .ok 1 ⟨(depthState2 nd).mgr, d⟩ else .assertFail := by
  have hR : Reachable (envOf nd) .unordered (depthState nd) := stateAfter_reachable _ _ _
  have hR2 : Reachable (envOf nd) .unordered (depthState2 nd) := runHist_reachable _ _ _ hR (depthState2_run nd)
  have h0 : DepthReach (envOf nd) .unordered (depthState nd) (fun _ => none) := .init hR
  have h1 := DepthReach.bot h0 rfl ((addSink_ok h0.inv.1).1 rfl)
  have h2 := DepthReach.top h1 rfl ((addSink_ok h1.inv.1).2 rfl)
  have c3 : ((depthState nd).mgr.cells 2).live = true ∧ ((depthState nd).mgr.cells 2).lo = 0 ∧ ((depthState nd).mgr.cells 2).hi = 1 := by cases nd <;> decide +kernel
  have c5 : ((depthState nd).mgr.cells 3).live = true ∧ ((depthState nd).mgr.cells 3).lo = 0 ∧ ((depthState nd).mgr.cells 3).hi = 2 := by cases nd <;> decide +kernel
  obtain ⟨n, t, x, y, e, b1, b2, b3, _, b4, b5⟩ := C53_depth h2 (p := 2) (by omega) c3.1 rfl (by rw [c3.2.1]; simp [upd]) (by rw [c3.2.2]; simp [upd])
  have h3 := DepthReach.add h2 (by omega) c3.1 rfl (by rw [c3.2.1]; simp [upd]) (by rw [c3.2.2]; simp [upd]) e
  rw [c3.2.1] at b1
  rw [c3.2.2] at b2
  simp [upd] at b1 b2
  have d0 : t.depth 0 = some 0 := by rw [b5 0 (by omega)]; simp [upd]
  have d1 : t.depth 1 = some 0 := by rw [b5 1 (by omega)]; simp [upd]
  have d3 : t.depth 2 = some 1 := by rw [b4, b3, ← b1, ← b2]; rfl
  have d5 : t.depth 3 = none := by rw [b5 3 (by omega)]; simp [upd]
  obtain ⟨n', t', x', y', e', b1', b2', b3', _, b4', b5'⟩ := C53_depth h3 (p := 3) (by omega) c5.1 d5 (by rw [c5.2.1, d0]; simp) (by rw [c5.2.2, d3]; simp)
  have h4 := DepthReach.add h3 (by omega) c5.1 d5 (by rw [c5.2.1, d0]; simp) (by rw [c5.2.2, d3]; simp) e'
  rw [c5.2.1, d0] at b1'
  rw [c5.2.2, d3] at b2'
  cases b1'; cases b2'
  have f0 : t'.depth 0 = some 0 := by rw [b5' 0 (by omega), d0]
  have f1 : t'.depth 1 = some 0 := by rw [b5' 1 (by omega), d1]
  have f3 : t'.depth 3 = some 2 := by rw [b4', b3']; rfl
  have c : ((depthState2 nd).mgr.cells 3).live = true ∧ ((depthState2 nd).mgr.cells 3).lo = 0 ∧ ((depthState2 nd).mgr.cells 3).hi = 1 := by cases nd <;> decide +kernel
  refine ⟨t'.depth, h4, f3, depthState2_run nd, hR2, by unfold Api.Holds; cases nd <;> decide +kernel, ?_, ?_⟩
  · have k0 : DepthReach (envOf nd) .unordered (depthState2 nd) (fun _ => none) := .init hR2
    have k1 := DepthReach.bot k0 rfl ((addSink_ok k0.inv.1).1 rfl)
    have k2 := DepthReach.top k1 rfl ((addSink_ok k1.inv.1).2 rfl)
    obtain ⟨m, _, x, y, _, a1, a2, a3, a4, _⟩ := C53_depth k2 (p := 3) (by omega) c.1 rfl (by rw [c.2.1]; simp [upd]) (by rw [c.2.2]; simp [upd])
    rw [c.2.1] at a1
    rw [c.2.2] at a2
    simp [upd] at a1 a2
    subst a1 a2 a3
    exact a4
  · have hc : DepthTab.check (envOf nd) (do let t ← isTerminal (envOf nd) 3; pure (!t)) ⟨(depthState2 nd).mgr, t'.depth⟩ = .ok () ⟨(depthState2 nd).mgr, t'.depth⟩ :=
      check_inner hR2.good (by omega) c.1
    have hi := hR2.good.node 3 (by omega) c.1
    have hv := hR2.good.nv
    unfold addNode
    rw [M.get_bind_apply, M.bind_ok hc]
    simp only
    rw [if_neg (by simp [c.1]; omega), M.assert_bind_apply (by rw [c.2.1, f0]; rfl), M.assert_bind_apply (by rw [c.2.2, f1]; rfl), f3, c.2.1, c.2.2, f0, f1]
    cases nd
    · rfl
    · show (DepthTab.insert 3 1 >>= fun _ => pure 1) _ = _
      have : DepthTab.insert 3 1 ⟨(depthState2 true).mgr, t'.depth⟩ = .ok () ⟨(depthState2 true).mgr, t'.depth⟩ := by
        show Res.ok () _ = _
        simp only [f3]
      rw [M.bind_ok this]
      rfl

end LBDD
