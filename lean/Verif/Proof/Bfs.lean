import Verif.Proof.Walk
/-! Breadth-first listing. -/
namespace LBDD

theorem nodup_length_le : ∀ (n : Nat) (l : List Nat), l.Nodup → (∀ q ∈ l, q < n) → l.length ≤ n := by
  intro n
  induction n with
  | zero =>
    intro l _ h
    cases l with
    | nil => simp
    | cons a l => exact absurd (h a (by simp)) (by omega)
  | succ n ih =>
    intro l hn h
    by_cases hm : n ∈ l
    · have := ih (l.erase n) (hn.erase n) (by
        intro q hq
        have h1 := h q (List.mem_of_mem_erase hq)
        have h2 : q ≠ n := fun e => by subst e; exact hn.not_mem_erase hq
        omega)
      rw [List.length_erase_of_mem hm] at this
      omega
    · have := ih l hn (by
        intro q hq
        have h1 := h q hq
        have h2 : q ≠ n := fun e => hm (e ▸ hq)
        omega)
      omega

theorem Path.reaches {c : Nat → Cell} {p q n : Nat} (h : Path c p q n) : Reaches c p q := by
  induction h with
  | refl => exact .refl _
  | lo _ h2 hl ih => exact ih.trans (.lo h2 hl (.refl _))
  | hi _ h2 hl ih => exact ih.trans (.hi h2 hl (.refl _))

/-- Invariant of the breadth-first search: `L` are the nodes marked so far, in order. -/
structure Bfs (c : Nat → Cell) (root : Nat) (m0 m : Nat → Bool) (L : List Nat) (d : Nat → Nat) : Prop where
  marks : ∀ q, m q = if q ∈ L then true else m0 q
  nodup : L.Nodup
  mem : ∀ q ∈ L, 2 ≤ q ∧ (c q).live = true ∧ m0 q = false
  head : ∃ L', L = root :: L'
  zero : d root = 0
  sorted : L.Pairwise (fun a b => d a ≤ d b)
  path : ∀ q ∈ L, Path c root q (d q)
  parent : ∀ l1 q l2, L = l1 ++ q :: l2 → q = root ∨ ∃ x ∈ l1, q = (c x).lo ∨ q = (c x).hi

theorem Bfs.push {c : Nat → Cell} {root : Nat} {m0 m : Nat → Bool} {L : List Nat} {d : Nat → Nat} (h : Bfs c root m0 m L d)
    {p r : Nat} (hp : p ∈ L) (hr : r = (c p).lo ∨ r = (c p).hi) (hb : ∀ q ∈ L, d q ≤ d p + 1)
    (r2 : 2 ≤ r) (rl : (c r).live = true) (hm : m r = false) :
    Bfs c root m0 (upd m r true) (L ++ [r]) (upd d r (d p + 1)) := by
  have hrL : r ∉ L := fun hh => by rw [h.marks, if_pos hh] at hm; exact absurd hm (by decide)
  have hd : ∀ q ∈ L, upd d r (d p + 1) q = d q := fun q hq => upd_ne _ _ (fun e => hrL (e ▸ hq))
  have hroot : root ∈ L := by obtain ⟨L', e⟩ := h.head; rw [e]; simp
  constructor
  · intro q
    by_cases e : q = r
    · subst e; simp
    · rw [upd_ne _ _ e, h.marks]; simp [e]
  · rw [List.nodup_append]
    refine ⟨h.nodup, by simp, ?_⟩
    intro a ha b hb' e
    simp only [List.mem_singleton] at hb'
    subst e; subst hb'; exact hrL ha
  · intro q hq
    rcases List.mem_append.1 hq with hq | hq
    · exact h.mem q hq
    · simp only [List.mem_singleton] at hq; subst hq
      refine ⟨r2, rl, ?_⟩
      rw [h.marks, if_neg hrL] at hm; exact hm
  · obtain ⟨L', e⟩ := h.head
    exact ⟨L' ++ [r], by rw [e]; rfl⟩
  · rw [hd _ hroot]; exact h.zero
  · rw [List.pairwise_append]
    refine ⟨h.sorted.imp_of_mem (fun {a b} ha hb' hab => by rw [hd a ha, hd b hb']; exact hab), by simp, ?_⟩
    intro a ha b hb'
    simp only [List.mem_singleton] at hb'
    subst hb'
    rw [hd a ha, upd_same]; exact hb a ha
  · intro q hq
    rcases List.mem_append.1 hq with hq | hq
    · rw [hd q hq]; exact h.path q hq
    · simp only [List.mem_singleton] at hq; subst hq
      rw [upd_same]
      obtain ⟨a, b, _⟩ := h.mem p hp
      rcases hr with e | e
      · rw [e]; exact .lo (h.path p hp) a b
      · rw [e]; exact .hi (h.path p hp) a b
  · intro l1 q l2 e
    rcases List.append_eq_append_iff.1 e with ⟨a', h1, h2⟩ | ⟨c', h1, h2⟩
    · cases a' with
      | nil =>
        simp only [List.nil_append, List.cons.injEq] at h2
        rw [List.append_nil] at h1
        right
        refine ⟨p, h1 ▸ hp, ?_⟩
        rw [← h2.1]; exact hr
      | cons x a' =>
        simp at h2
    · cases c' with
      | nil =>
        simp only [List.nil_append, List.cons.injEq] at h2
        rw [List.append_nil] at h1
        right
        refine ⟨p, h1 ▸ hp, ?_⟩
        rw [h2.1]; exact hr
      | cons x c' =>
        simp only [List.cons_append, List.cons.injEq] at h2
        obtain ⟨rfl, _⟩ := h2
        exact h.parent l1 q c' h1

section
variable {cfg : Cfg} {md : Md} {refs : Nat → Nat} {s : Mgr}

theorem bfsPush_ok (hi : Inv cfg md refs s) {m0 : Nat → Bool} {root p r : Nat} (hm0 : ∀ q, 2 ≤ q → Reaches s.cells root q → m0 q = false) {m : Nat → Bool} {acc dq : List Nat} {d : Nat → Nat}
    (h : Bfs s.cells root m0 m (acc ++ dq) d) (hp : p ∈ acc ++ dq) (hr : r = (s.cells p).lo ∨ r = (s.cells p).hi)
    (hb : ∀ q ∈ acc ++ dq, d q ≤ d p + 1) :
    ∃ ext m' d', bfsPush cfg r dq { s with marks := m } = .ok (dq ++ ext) { s with marks := m' } ∧
      Bfs s.cells root m0 m' (acc ++ (dq ++ ext)) d' ∧ (∀ q ∈ acc ++ dq, d' q = d q) ∧
      (2 ≤ r → r ∈ acc ++ (dq ++ ext) ∧ d' r ≤ d p + 1) ∧ (∀ q ∈ acc ++ (dq ++ ext), d' q ≤ d p + 1) := by
  obtain ⟨p2, pl, _⟩ := h.mem p hp
  have rl : (s.cells r).live = true := by
    rcases hr with rfl | rfl
    · exact hi.lo_live p2 pl
    · exact hi.hi_live p2 pl
  obtain ⟨t, ht⟩ := hi.repr rl
  unfold bfsPush
  rw [M.bind_ok (isTerm_ok hi ht (s' := { s with marks := m }) rfl)]
  by_cases r2 : r < 2
  · simp only [r2, decide_true, if_true]
    exact ⟨[], m, d, by rw [List.append_nil]; rfl, by simpa using h, fun _ _ => rfl, fun h => absurd r2 (by omega), by simpa using hb⟩
  · simp only [r2, decide_false, Bool.false_eq_true, if_false]
    rw [M.bind_ok (getMark_ok { s with marks := m } r)]
    cases e : m r with
    | true =>
      simp only [e, if_true]
      refine ⟨[], m, d, by rw [List.append_nil]; rfl, by simpa using h, fun _ _ => rfl, ?_, by simpa using hb⟩
      intro r2'
      have hr' : r ∈ acc ++ dq := by
        rw [h.marks] at e
        split at e
        · assumption
        · have hrr : Reaches s.cells root r := (h.path p hp).reaches.trans (by
            rcases hr with rfl | rfl
            · exact .lo p2 pl (.refl _)
            · exact .hi p2 pl (.refl _))
          rw [hm0 r r2' hrr] at e; exact absurd e (by decide)
      rw [List.append_nil]
      exact ⟨hr', hb r hr'⟩
    | false =>
      simp only [e, Bool.false_eq_true, if_false]
      rw [M.bind_ok (setMark_ok { s with marks := m } r true)]
      have h' := h.push hp hr hb (by omega) rl e
      have hrL : r ∉ acc ++ dq := fun hh => by rw [h.marks, if_pos hh] at e; exact absurd e (by decide)
      have hd : ∀ q ∈ acc ++ dq, upd d r (d p + 1) q = d q := fun q hq => upd_ne _ _ (fun e => hrL (e ▸ hq))
      refine ⟨[r], _, _, rfl, by simpa using h', hd, ?_, ?_⟩
      · intro _; exact ⟨by simp, by rw [upd_same]; exact Nat.le_refl _⟩
      · intro q hq
        rw [← List.append_assoc] at hq
        rcases List.mem_append.1 hq with hq | hq
        · rw [hd q hq]; exact hb q hq
        · simp only [List.mem_singleton] at hq; subst hq; rw [upd_same]; exact Nat.le_refl _

theorem bfsLoop_ok (hi : Inv cfg md refs s) {m0 : Nat → Bool} {root : Nat} (hm0 : ∀ q, 2 ≤ q → Reaches s.cells root q → m0 q = false) : ∀ (n : Nat) (dq acc : List Nat) (m : Nat → Bool) (d : Nat → Nat),
    Bfs s.cells root m0 m (acc ++ dq) d → s.pool.hw + 1 ≤ n + acc.length →
    (∀ x t, dq = x :: t → ∀ q ∈ acc ++ dq, d q ≤ d x + 1) →
    (∀ q ∈ acc, ∀ r, (r = (s.cells q).lo ∨ r = (s.cells q).hi) → 2 ≤ r → r ∈ acc ++ dq ∧ d r ≤ d q + 1) →
    ∃ l m' d', bfsLoop cfg n dq acc { s with marks := m } = .ok l { s with marks := m' } ∧ Bfs s.cells root m0 m' l d' ∧
      (∀ q ∈ l, ∀ r, (r = (s.cells q).lo ∨ r = (s.cells q).hi) → 2 ≤ r → r ∈ l ∧ d' r ≤ d' q + 1) := by
  intro n
  induction n with
  | zero =>
    intro dq acc m d h hf _ hc
    have hlen := nodup_length_le s.pool.hw (acc ++ dq) h.nodup (fun q hq => ((hi.pool.live q).1 (h.mem q hq).2.1).1)
    rw [List.length_append] at hlen
    omega
  | succ n ih =>
    intro dq acc m d h hf hb hc
    cases dq with
    | nil => exact ⟨acc, m, d, rfl, by simpa using h, by simpa using hc⟩
    | cons p dq =>
      unfold bfsLoop
      have hp : p ∈ acc ++ p :: dq := by simp
      obtain ⟨p2, pl, _⟩ := h.mem p hp
      rw [M.bind_ok (getMark_ok { s with marks := m } p), M.assert_bind_apply (by simp [h.marks p])]
      rw [M.bind_ok (lowOf_congr hi p2 pl (s' := { s with marks := m }) rfl)]
      have ea : ∀ x, acc ++ p :: x = (acc ++ [p]) ++ x := by simp
      have h0 := h
      rw [ea] at h0
      obtain ⟨x1, m1, d1, e1, b1, s1, c1, u1⟩ := bfsPush_ok hi hm0 (r := (s.cells p).lo) h0 (by rw [← ea]; exact hp) (Or.inl rfl)
        (by rw [← ea]; exact hb p dq rfl)
      rw [M.bind_ok e1]
      rw [M.bind_ok (highOf_congr hi p2 pl (s' := { s with marks := m1 }) rfl)]
      have ep1 : d1 p = d p := s1 p (by simp)
      obtain ⟨x2, m2, d2, e2, b2, s2, c2, u2⟩ := bfsPush_ok hi hm0 (r := (s.cells p).hi) b1 (p := p) (by simp) (Or.inr rfl)
        (by rw [ep1]; exact u1)
      rw [M.bind_ok e2]
      have ep2 : d2 p = d p := (s2 p (by simp)).trans ep1
      have s12 : ∀ q ∈ acc ++ p :: dq, d2 q = d q := by
        intro q hq
        rw [ea] at hq
        rw [s2 q (by simp only [List.mem_append] at hq ⊢; rcases hq with h | h; exact Or.inl h; exact Or.inr (Or.inl h)), s1 q hq]
      refine ih _ (acc ++ [p]) m2 d2 b2 (by simp; omega) ?_ ?_
      · intro x t ex q hq
        have hle : d2 p ≤ d2 x := by
          have hs := b2.sorted
          rw [ex] at hs
          have := (List.pairwise_append.1 hs).2.2
          exact this p (by simp) x (by simp)
        have := u2 q hq
        rw [ep1] at this
        omega
      · intro q hq r hr r2
        rcases List.mem_append.1 hq with hq | hq
        · obtain ⟨a, b⟩ := hc q hq r hr r2
          refine ⟨?_, ?_⟩
          · simp only [List.mem_append, List.mem_cons] at a ⊢
            rcases a with a | a | a <;> simp [a]
          · rw [s12 r a, s12 q (by simp [hq])]; exact b
        · simp only [List.mem_singleton] at hq; subst hq
          rcases hr with rfl | rfl
          · obtain ⟨a, b⟩ := c1 r2
            refine ⟨?_, ?_⟩
            · simp only [List.mem_append] at a ⊢
              rcases a with (a | a) | a | a <;> simp [a]
            · rw [s2 _ a, ep2]; exact b
          · obtain ⟨a, b⟩ := c2 r2
            exact ⟨a, by rw [ep2]; rw [ep1] at b; exact b⟩

/-- What `nodes_bfs` returns: every inner node once, the root first, in order of distance from the root. -/
structure BfsList (c : Nat → Cell) (root : Nat) (l : List Nat) : Prop where
  lists : Lists c root l
  head : ∃ l', l = root :: l'
  parent : ∀ l1 q l2, l = l1 ++ q :: l2 → q = root ∨ ∃ x ∈ l1, q = (c x).lo ∨ q = (c x).hi
  dist : ∃ d : Nat → Nat, (∀ q ∈ l, Path c root q (d q) ∧ ∀ n, Path c root q n → d q ≤ n) ∧ l.Pairwise (fun a b => d a ≤ d b)

theorem bfsList_of {c : Nat → Cell} {root : Nat} {m0 m : Nat → Bool} {l : List Nat} {d : Nat → Nat} (h : Bfs c root m0 m l d)
    (hc : ∀ q ∈ l, ∀ r, (r = (c q).lo ∨ r = (c q).hi) → 2 ≤ r → r ∈ l ∧ d r ≤ d q + 1) : BfsList c root l := by
  have hroot : root ∈ l := by obtain ⟨L', e⟩ := h.head; rw [e]; simp
  have key : ∀ a q n, Path c a q n → a = root → (2 ≤ q → q ∈ l ∧ d q ≤ n) := by
    intro a q n hp
    induction hp with
    | refl => rintro rfl _; exact ⟨hroot, by rw [h.zero]; exact Nat.zero_le _⟩
    | @lo q n _ q2 ql ih =>
      intro e r2
      obtain ⟨a, b⟩ := ih e q2
      obtain ⟨a', b'⟩ := hc q a _ (Or.inl rfl) r2
      exact ⟨a', by omega⟩
    | @hi q n _ q2 ql ih =>
      intro e r2
      obtain ⟨a, b⟩ := ih e q2
      obtain ⟨a', b'⟩ := hc q a _ (Or.inr rfl) r2
      exact ⟨a', by omega⟩
  have path_of : ∀ a q, Reaches c a q → ∀ n, Path c root a n → ∃ k, Path c root q k := by
    intro a q hr
    induction hr with
    | refl => intro n hn; exact ⟨n, hn⟩
    | lo h2 hl _ ih => intro n hn; exact ih _ (.lo hn h2 hl)
    | hi h2 hl _ ih => intro n hn; exact ih _ (.hi hn h2 hl)
  refine ⟨⟨h.nodup, ?_⟩, h.head, h.parent, d, ?_, h.sorted⟩
  · intro q
    constructor
    · intro hq; exact ⟨(h.mem q hq).1, (h.path q hq).reaches⟩
    · rintro ⟨q2, hr⟩
      obtain ⟨k, hk⟩ := path_of _ _ hr 0 (.refl _)
      exact (key root q k hk rfl q2).1
  · intro q hq
    exact ⟨h.path q hq, fun n hn => (key root q n hn rfl (h.mem q hq).1).2⟩

end
end LBDD
