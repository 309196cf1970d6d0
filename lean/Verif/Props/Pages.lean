import Verif.Model.Pages
import Verif.Proof.Table
/-!
# The page pools of the unique tables (C37, C38)
-/
namespace LBDD
section
variable {cfg : Cfg} {nr : Nat → Nat}

/-- States of the page pools reachable by any sequence of `reserve_page` and `free_page` calls on any of the pools, with the pages handed out and not
yet freed, each with the pool size `n` it was reserved with. The user of a page may write anything into its first `n` words, and may return it to any
pool of at most this size (as `var_struct` does). -/
inductive PageReach (cfg : Cfg) (nr : Nat → Nat) : PageSys → List (Nat × Nat) → Prop
  | init : PageReach cfg nr .init []
  | reserve {y y' : PageSys} {H : List (Nat × Nat)} {n p : Nat} : PageReach cfg nr y H → 1 ≤ n → 1 ≤ nr n → reservePage cfg nr n 2 y = .ok p y' →
      PageReach cfg nr y' ((p, n) :: H)
  | write {y : PageSys} {H : List (Nat × Nat)} {n p i : Nat} {w : Word} : PageReach cfg nr y H → (p, n) ∈ H → i < n →
      PageReach cfg nr { y with word := upd y.word p (upd (y.word p) i w) } H
  | free {y y' : PageSys} {H : List (Nat × Nat)} {n k p : Nat} : PageReach cfg nr y H → (p, n) ∈ H → 1 ≤ k → k ≤ n → freePage k p y = .ok () y' →
      PageReach cfg nr y' (H.erase (p, n))

/-- `l` is the list of pages that following the links from `h` gives. -/
def Chain (y : PageSys) : Option Nat → List Nat → Prop
  | h, [] => h = none
  | h, p :: l => h = some p ∧ ∃ nx, y.word p 0 = linkWord nx ∧ Chain y nx l

/-- Free lists `L n` of the pools. -/
structure PageInv (nr : Nat → Nat) (y : PageSys) (H : List (Nat × Nat)) (L : Nat → List Nat) : Prop where
  chain : ∀ n, Chain y (y.head n) (L n)
  nodup : ∀ n, (L n).Nodup
  disj : ∀ n m p, p ∈ L n → p ∈ L m → n = m
  held : (H.map Prod.fst).Nodup
  sep : ∀ n p, p ∈ L n → p ∉ H.map Prod.fst
  all : ∀ p, p < y.count ↔ (∃ n, p ∈ L n) ∨ p ∈ H.map Prod.fst
  big : ∀ n p, p ∈ L n → n ≤ y.size p
  hbig : ∀ p n, (p, n) ∈ H → 1 ≤ n ∧ n ≤ y.size p
  zero : L 0 = []
  nr : ∀ n, y.nrPages nr n = ((List.range y.count).filter (fun p => y.size p == n)).length

theorem Chain.congr {y y' : PageSys} : ∀ (l : List Nat) (h : Option Nat), (∀ p ∈ l, y'.word p 0 = y.word p 0) → Chain y h l → Chain y' h l := by
  intro l
  induction l with
  | nil => intro h _ hc; exact hc
  | cons p l ih =>
    intro h hw hc
    obtain ⟨e, nx, e1, e2⟩ := hc
    exact ⟨e, nx, by rw [hw p (by simp)]; exact e1, ih nx (fun q hq => hw q (by simp [hq])) e2⟩

theorem linkWord_inj {a b : Option Nat} (h : linkWord a = linkWord b) : a = b := by
  cases a <;> cases b <;> simp [linkWord] at h <;> simp [h]

/-- Reserving from a non-empty pool. -/
theorem reserve_cons {y : PageSys} {H : List (Nat × Nat)} {L : Nat → List Nat} (hi : PageInv nr y H L) {n p : Nat} {l : List Nat} (hn : 1 ≤ n)
    (hl : L n = p :: l) (fuel : Nat) : ∃ y', reservePage cfg nr n (fuel + 1) y = .ok p y' ∧ PageInv nr y' ((p, n) :: H) (upd L n l) ∧
      (∀ i, i < n → y'.word p i = .null) ∧ (∀ q i, q ≠ p → y'.word q i = y.word q i) ∧ y'.size = y.size ∧ y'.count = y.count := by
  have hc := hi.chain n
  rw [hl] at hc
  obtain ⟨e, nx, e1, e2⟩ := hc
  have hp : p ∈ L n := by rw [hl]; simp
  have hbig := hi.big n p hp
  have hnd := hi.nodup n
  rw [hl, List.nodup_cons] at hnd
  refine ⟨{ y with head := upd y.head n nx, word := fun q i => if q = p ∧ i < n then .null else y.word q i }, ?_, ?_, ?_, ?_, rfl, rfl⟩
  · unfold reservePage
    show M.bind M.get _ y = _
    unfold M.bind M.get
    simp only [e, e1]
    cases nx with
    | none => simp only [linkWord]; rw [if_neg (by omega)]; rfl
    | some q => simp only [linkWord]; rw [if_neg (by omega)]; rfl
  · have hmem : ∀ m q, q ∈ upd L n l m → q ∈ L m ∧ q ≠ p := by
      intro m q hq
      by_cases em : m = n
      · subst em
        rw [upd_same] at hq
        exact ⟨by rw [hl]; simp [hq], fun e => hnd.1 (e ▸ hq)⟩
      · rw [upd_ne _ _ em] at hq
        exact ⟨hq, fun e => em (hi.disj m n q hq (by rw [e]; exact hp))⟩
    constructor
    · intro m
      have hw : ∀ q ∈ upd L n l m, (if q = p ∧ 0 < n then Word.null else y.word q 0) = y.word q 0 := by
        intro q hq
        rw [if_neg (fun h => (hmem m q hq).2 h.1)]
      by_cases em : m = n
      · subst em
        show Chain _ (upd y.head m nx m) (upd L m l m)
        rw [upd_same] at hw ⊢
        rw [upd_same]
        exact Chain.congr (y := y) l nx hw e2
      · show Chain _ (upd y.head n nx m) (upd L n l m)
        rw [upd_ne _ _ em] at hw ⊢
        rw [upd_ne _ _ em]
        exact Chain.congr (y := y) _ _ hw (hi.chain m)
    · intro m
      by_cases em : m = n
      · subst em; rw [upd_same]; exact hnd.2
      · rw [upd_ne _ _ em]; exact hi.nodup m
    · intro m m' q h1 h2
      exact hi.disj m m' q (hmem _ _ h1).1 (hmem _ _ h2).1
    · rw [List.map_cons, List.nodup_cons]
      exact ⟨hi.sep n p hp, hi.held⟩
    · intro m q hq
      rw [List.map_cons, List.mem_cons]
      rintro (h | h)
      · exact (hmem m q hq).2 h
      · exact hi.sep m q (hmem m q hq).1 h
    · intro q
      show q < y.count ↔ _
      rw [hi.all q, List.map_cons, List.mem_cons]
      constructor
      · rintro (⟨m, hm⟩ | h)
        · by_cases eq : q = p
          · exact Or.inr (Or.inl eq)
          · left
            refine ⟨m, ?_⟩
            by_cases em : m = n
            · subst em
              rw [upd_same]
              rw [hl] at hm
              exact (List.mem_cons.1 hm).resolve_left eq
            · rw [upd_ne _ _ em]; exact hm
        · exact Or.inr (Or.inr h)
      · rintro (⟨m, hm⟩ | h | h)
        · exact Or.inl ⟨m, (hmem m q hm).1⟩
        · exact Or.inl ⟨n, by rw [show q = p from h]; exact hp⟩
        · exact Or.inr h
    · intro m q hq
      exact hi.big m q (hmem m q hq).1
    · intro q m hq
      rcases List.mem_cons.1 hq with h | h
      · cases h; exact ⟨hn, hbig⟩
      · exact hi.hbig q m h
    · rw [upd_ne _ _ (by omega)]; exact hi.zero
    · exact hi.nr
  · intro i hi'
    simp [hi']
  · intro q i hq
    simp [hq]

theorem filter_range_add {P : Nat → Bool} (a b : Nat) : ((List.range (a + b)).filter P).length =
    ((List.range a).filter P).length + ((List.range b).filter (fun i => P (a + i))).length := by
  induction b with
  | zero => simp
  | succ b ih =>
    rw [← Nat.add_assoc, List.range_succ, List.range_succ, List.filter_append, List.filter_append, List.length_append, List.length_append, ih]
    have : ([a + b].filter P).length = ([b].filter (fun i => P (a + i))).length := by
      cases h : P (a + b) <;> simp [h]
    omega

/-- Increasing an empty pool. -/
theorem increase_inv {y : PageSys} {H : List (Nat × Nat)} {L : Nat → List Nat} (hi : PageInv nr y H L) {n : Nat} (hn : 1 ≤ n) (hr : 1 ≤ nr n)
    (hl : L n = []) : ∃ y', increaseCache cfg nr n y = .ok () y' ∧ PageInv nr y' H (upd L n ((List.range (nr n)).map (y.count + ·))) ∧
      (∀ p i, p < y.count → y'.word p i = y.word p i) ∧ (∀ p, p < y.count → y'.size p = y.size p) ∧ y'.count = y.count + nr n := by
  have hhead : y.head n = none := by
    have := hi.chain n
    rw [hl] at this
    exact this
  have hold : ∀ p, (∃ m, p ∈ L m) ∨ p ∈ H.map Prod.fst → p < y.count := fun p h => (hi.all p).2 h
  refine ⟨y.grown nr n, ?_, ?_, ?_, ?_, rfl⟩
  · unfold increaseCache
    rw [M.get_bind_apply, M.assert_bind_apply (by rw [hhead]; rfl)]
    rfl
  · have hmem : ∀ m q, q ∈ upd L n ((List.range (nr n)).map (y.count + ·)) m ↔
        (m = n ∧ y.count ≤ q ∧ q < y.count + nr n) ∨ q ∈ L m := by
      intro m q
      by_cases em : m = n
      · subst em
        rw [upd_same, hl]
        simp only [List.mem_map, List.mem_range, List.not_mem_nil, or_false]
        constructor
        · rintro ⟨i, h1, rfl⟩; exact ⟨trivial, by omega, by omega⟩
        · rintro ⟨_, h1, h2⟩; exact ⟨q - y.count, by omega, by omega⟩
      · rw [upd_ne _ _ em]
        simp [em]
    constructor
    · intro m
      by_cases em : m = n
      · subst em
        show Chain _ (upd y.head m (some y.count) m) (upd L m _ m)
        rw [upd_same, upd_same]
        have key : ∀ b a, a + b = y.count + nr m → y.count ≤ a → ∀ h : Option Nat, h = (if a < y.count + nr m then some a else none) → ∀ y' : PageSys,
            (∀ p, y.count ≤ p → p < y.count + nr m → y'.word p 0 = linkWord (if p + 1 < y.count + nr m then some (p + 1) else none)) →
            Chain y' h ((List.range b).map (a + ·)) := by
          intro b
          induction b with
          | zero => intro a h1 h2 h hh y' hw; rw [if_neg (by omega)] at hh; exact hh
          | succ b ih =>
            intro a h1 h2 h hh y' hw
            rw [if_pos (by omega)] at hh
            rw [List.range_succ_eq_map, List.map_cons, List.map_map]
            refine ⟨by rw [hh]; simp, _, by simpa using hw a h2 (by omega), ?_⟩
            have := ih (a + 1) (by omega) (by omega) _ rfl y' hw
            have e : (List.range b).map ((fun x => a + x) ∘ Nat.succ) = (List.range b).map (a + 1 + ·) := by
              apply List.map_congr_left
              intro i _
              simp only [Function.comp]
              omega
            rw [e]
            exact this
        refine key (nr m) y.count rfl (Nat.le_refl _) _ (by rw [if_pos (by omega)]) _ ?_
        intro p h1 h2
        show (if _ then _ else _) = _
        rw [if_pos ⟨h1, h2⟩, if_pos rfl]
      · show Chain _ (upd y.head n (some y.count) m) (upd L n _ m)
        rw [upd_ne _ _ em, upd_ne _ _ em]
        refine Chain.congr (y := y) _ _ ?_ (hi.chain m)
        intro p hp
        have := hold p (.inl ⟨m, hp⟩)
        show (if _ then _ else _) = _
        rw [if_neg (by omega)]
    · intro m
      by_cases em : m = n
      · subst em
        rw [upd_same]
        exact List.Pairwise.map _ (fun a b h => by omega) List.nodup_range
      · rw [upd_ne _ _ em]; exact hi.nodup m
    · intro m m' q h1 h2
      rcases (hmem m q).1 h1 with ⟨e1, a1, a2⟩ | g1 <;> rcases (hmem m' q).1 h2 with ⟨e2, b1, b2⟩ | g2
      · rw [e1, e2]
      · have := hold q (.inl ⟨m', g2⟩); omega
      · have := hold q (.inl ⟨m, g1⟩); omega
      · exact hi.disj m m' q g1 g2
    · exact hi.held
    · intro m q hq hH
      rcases (hmem m q).1 hq with ⟨_, a1, _⟩ | h
      · have := hold q (.inr hH); omega
      · exact hi.sep m q h hH
    · intro q
      show q < y.count + nr n ↔ _
      constructor
      · intro hq
        rcases Nat.lt_or_ge q y.count with h | h
        · rcases (hi.all q).1 h with ⟨m, hm⟩ | h
          · exact .inl ⟨m, (hmem m q).2 (.inr hm)⟩
          · exact .inr h
        · exact .inl ⟨n, (hmem n q).2 (.inl ⟨rfl, h, hq⟩)⟩
      · rintro (⟨m, hm⟩ | h)
        · rcases (hmem m q).1 hm with ⟨_, _, h⟩ | h
          · exact h
          · have := hold q (.inl ⟨m, h⟩); omega
        · have := hold q (.inr h); omega
    · intro m q hq
      show m ≤ (if _ then _ else _)
      rcases (hmem m q).1 hq with ⟨rfl, h1, h2⟩ | h
      · rw [if_pos ⟨h1, h2⟩]; exact Nat.le_refl _
      · have := hold q (.inl ⟨m, h⟩)
        rw [if_neg (by omega)]; exact hi.big m q h
    · intro q m hq
      have := hold q (.inr (List.mem_map.2 ⟨_, hq, rfl⟩))
      show 1 ≤ m ∧ m ≤ (if _ then _ else _)
      rw [if_neg (by omega)]; exact hi.hbig q m hq
    · rw [upd_ne _ _ (by omega)]; exact hi.zero
    · intro m
      have h0 := hi.nr m
      unfold PageSys.nrPages at h0 ⊢
      show upd y.blocks n (y.blocks n + 1) m * nr m = ((List.range (y.count + nr n)).filter
        (fun p => (if y.count ≤ p ∧ p < y.count + nr n then n else y.size p) == m)).length
      rw [filter_range_add]
      have e1 : (List.range y.count).filter (fun p => (if y.count ≤ p ∧ p < y.count + nr n then n else y.size p) == m) =
          (List.range y.count).filter (fun p => y.size p == m) := by
        apply List.filter_congr
        intro p hp
        rw [if_neg (by have := List.mem_range.1 hp; omega)]
      have e2 : (List.range (nr n)).filter (fun i => (if y.count ≤ y.count + i ∧ y.count + i < y.count + nr n then n else y.size (y.count + i)) == m) =
          (List.range (nr n)).filter (fun _ => n == m) := by
        apply List.filter_congr
        intro p hp
        rw [if_pos (by have := List.mem_range.1 hp; omega)]
      rw [e1, e2, ← h0]
      by_cases em : m = n
      · subst em
        rw [upd_same]
        rw [List.filter_eq_self.2 (by simp), List.length_range, Nat.add_mul]
        omega
      · rw [upd_ne _ _ em]
        have : (n == m) = false := by simp; omega
        simp [this]
  · intro p i hp
    show (if _ then _ else _) = _
    rw [if_neg (by omega)]
  · intro p hp
    show (if _ then _ else _) = _
    rw [if_neg (by omega)]

/-- Returning a page. -/
theorem free_inv {y : PageSys} {H : List (Nat × Nat)} {L : Nat → List Nat} (hi : PageInv nr y H L) {n k p : Nat} (hp : (p, n) ∈ H) (hk : 1 ≤ k)
    (hkn : k ≤ n) : ∃ y', freePage k p y = .ok () y' ∧ PageInv nr y' (H.erase (p, n)) (upd L k (p :: L k)) ∧
      (∀ q i, q ≠ p → y'.word q i = y.word q i) ∧ y'.size = y.size ∧ y'.count = y.count := by
  obtain ⟨hn1, hsz⟩ := hi.hbig p n hp
  have hpH : p ∈ H.map Prod.fst := List.mem_map.2 ⟨_, hp, rfl⟩
  have hpL : ∀ m, p ∉ L m := fun m h => hi.sep m p h hpH
  have hmem : ∀ m q, q ∈ upd L k (p :: L k) m ↔ (m = k ∧ q = p) ∨ q ∈ L m := by
    intro m q
    by_cases em : m = k
    · subst em; rw [upd_same, List.mem_cons]; simp
    · rw [upd_ne _ _ em]; simp [em]
  -- the user holds `p` once
  have hone : ∀ m, (p, m) ∈ H → m = n := by
    intro m hm
    have := hi.held
    revert this hm hp
    generalize H = H'
    induction H' with
    | nil => intro h; cases h
    | cons x xs ih =>
      intro h1 h2 h3
      rw [List.map_cons, List.nodup_cons] at h3
      rcases List.mem_cons.1 h1 with e1 | e1 <;> rcases List.mem_cons.1 h2 with e2 | e2
      · rw [← e1] at e2; cases e2; rfl
      · exact absurd (List.mem_map.2 ⟨_, e2, rfl⟩) (by rw [← e1] at h3; exact h3.1)
      · exact absurd (List.mem_map.2 ⟨_, e1, rfl⟩) (by rw [← e2] at h3; exact h3.1)
      · exact ih e1 e2 h3.2
  have hHnd : H.Nodup := (List.pairwise_map.1 hi.held).imp (fun h e => h (by rw [e]))
  have hmap : ∀ q, q ∈ (H.erase (p, n)).map Prod.fst ↔ q ∈ H.map Prod.fst ∧ q ≠ p := by
    intro q
    simp only [List.mem_map]
    constructor
    · rintro ⟨⟨x, m⟩, h, rfl⟩
      obtain ⟨h1, h2⟩ := (List.Nodup.mem_erase_iff hHnd).1 h
      refine ⟨⟨_, h2, rfl⟩, ?_⟩
      rintro (rfl : x = p)
      exact h1 (by rw [hone m h2])
    · rintro ⟨⟨⟨x, m⟩, h, rfl⟩, h2⟩
      exact ⟨(x, m), (List.Nodup.mem_erase_iff hHnd).2 ⟨fun e => h2 (by cases e; rfl), h⟩, rfl⟩
  refine ⟨{ y with word := fun q i => if q = p ∧ i = 0 then linkWord (y.head k) else y.word q i, head := upd y.head k (some p) }, ?_, ?_, ?_, rfl, rfl⟩
  · unfold freePage
    rw [if_neg (by omega)]
  · constructor
    · intro m
      have hw : ∀ q ∈ L m, (if q = p ∧ 0 = 0 then linkWord (y.head k) else y.word q 0) = y.word q 0 := by
        intro q hq
        rw [if_neg]
        rintro ⟨rfl, _⟩
        exact hpL m hq
      by_cases em : m = k
      · subst em
        show Chain _ (upd y.head m (some p) m) (upd L m _ m)
        rw [upd_same, upd_same]
        refine ⟨rfl, y.head m, ?_, Chain.congr (y := y) _ _ hw (hi.chain m)⟩
        show (if _ then _ else _) = _
        rw [if_pos ⟨rfl, rfl⟩]
      · show Chain _ (upd y.head k (some p) m) (upd L k _ m)
        rw [upd_ne _ _ em, upd_ne _ _ em]
        exact Chain.congr (y := y) _ _ hw (hi.chain m)
    · intro m
      by_cases em : m = k
      · subst em; rw [upd_same, List.nodup_cons]; exact ⟨hpL m, hi.nodup m⟩
      · rw [upd_ne _ _ em]; exact hi.nodup m
    · intro m m' q h1 h2
      rcases (hmem m q).1 h1 with ⟨e1, a1⟩ | g1 <;> rcases (hmem m' q).1 h2 with ⟨e2, b1⟩ | g2
      · rw [e1, e2]
      · rw [a1] at g2; exact absurd g2 (hpL m')
      · rw [b1] at g1; exact absurd g1 (hpL m)
      · exact hi.disj m m' q g1 g2
    · exact hi.held.sublist (List.erase_sublist.map _)
    · intro m q hq hH
      obtain ⟨h1, h2⟩ := (hmap q).1 hH
      rcases (hmem m q).1 hq with ⟨_, e⟩ | g
      · exact h2 e
      · exact hi.sep m q g h1
    · intro q
      show q < y.count ↔ _
      rw [hi.all q, hmap q]
      constructor
      · rintro (⟨m, hm⟩ | h)
        · exact .inl ⟨m, (hmem m q).2 (.inr hm)⟩
        · by_cases e : q = p
          · exact .inl ⟨k, (hmem k q).2 (.inl ⟨rfl, e⟩)⟩
          · exact .inr ⟨h, e⟩
      · rintro (⟨m, hm⟩ | h)
        · rcases (hmem m q).1 hm with ⟨_, rfl⟩ | g
          · exact .inr hpH
          · exact .inl ⟨m, g⟩
        · exact .inr h.1
    · intro m q hq
      show m ≤ y.size q
      rcases (hmem m q).1 hq with ⟨rfl, rfl⟩ | g
      · omega
      · exact hi.big m q g
    · intro q m hq
      exact hi.hbig q m (List.erase_subset hq)
    · rw [upd_ne _ _ (by omega)]; exact hi.zero
    · exact hi.nr
  · intro q i hq
    simp [hq]

theorem write_inv {y : PageSys} {H : List (Nat × Nat)} {L : Nat → List Nat} (hi : PageInv nr y H L) {n p i : Nat} {w : Word} (hp : (p, n) ∈ H) :
    PageInv nr { y with word := upd y.word p (upd (y.word p) i w) } H L := by
  refine ⟨fun m => Chain.congr (y := y) _ _ ?_ (hi.chain m), hi.nodup, hi.disj, hi.held, hi.sep, hi.all, hi.big, hi.hbig, hi.zero, hi.nr⟩
  intro q hq
  show upd y.word p _ q 0 = _
  rw [upd_ne]
  rintro rfl
  exact hi.sep m q hq (List.mem_map.2 ⟨_, hp, rfl⟩)

/-- Reserving from any pool. -/
theorem reserve_inv {y : PageSys} {H : List (Nat × Nat)} {L : Nat → List Nat} (hi : PageInv nr y H L) {n : Nat} (hn : 1 ≤ n) (hr : 1 ≤ nr n) :
    ∃ p y' L', reservePage cfg nr n 2 y = .ok p y' ∧ PageInv nr y' ((p, n) :: H) L' ∧ p ∉ H.map Prod.fst ∧
      (∀ i, i < n → y'.word p i = .null) ∧ (∀ q i, q ∈ H.map Prod.fst → y'.word q i = y.word q i) ∧
      (∀ q, q ∈ H.map Prod.fst → y'.size q = y.size q) ∧ y.count ≤ y'.count := by
  cases hl : L n with
  | cons p l =>
    obtain ⟨y', e, h1, h2, h3, h4, h5⟩ := reserve_cons (cfg := cfg) hi hn hl 1
    have hp := hi.sep n p (by rw [hl]; simp)
    exact ⟨p, y', _, e, h1, hp, h2, fun q i hq => h3 q i (fun e => hp (e ▸ hq)), fun q _ => by rw [h4], by omega⟩
  | nil =>
    obtain ⟨y1, e1, g1, g2, g3, g4⟩ := increase_inv (cfg := cfg) hi hn hr hl
    obtain ⟨m, hm⟩ : ∃ m, nr n = m + 1 := ⟨nr n - 1, by omega⟩
    have hl1 : upd L n ((List.range (nr n)).map (y.count + ·)) n = y.count :: ((List.range m).map Nat.succ).map (y.count + ·) := by
      rw [upd_same, hm, List.range_succ_eq_map]; rfl
    obtain ⟨y', e, h1, h2, h3, h4, h5⟩ := reserve_cons (cfg := cfg) g1 hn hl1 0
    have hH : ∀ q, q ∈ H.map Prod.fst → q < y.count := fun q hq => (hi.all q).2 (.inr hq)
    refine ⟨_, y', _, ?_, h1, fun h => by have := hH _ h; omega, h2, fun q i hq => ?_, fun q hq => ?_, by omega⟩
    · rw [show (2 : Nat) = 1 + 1 from rfl]
      unfold reservePage
      have hhead : y.head n = none := by
        have := hi.chain n
        rw [hl] at this
        exact this
      show M.bind M.get _ y = _
      unfold M.bind M.get
      simp only [hhead]
      rw [M.bind_ok e1]
      exact e
    · have := hH q hq
      rw [h3 q i (by omega), g2 q i this]
    · rw [h4, g3 q (hH q hq)]

theorem PageReach.inv {y : PageSys} {H : List (Nat × Nat)} (h : PageReach cfg nr y H) : ∃ L, PageInv nr y H L := by
  induction h with
  | init =>
    refine ⟨fun _ => [], ?_, by simp, by simp, by simp, by simp, ?_, by simp, by simp, rfl, ?_⟩
    · intro n; rfl
    · intro p; simp [PageSys.init]
    · intro n; simp [PageSys.init, PageSys.nrPages]
  | reserve _ hn hr e ih =>
    obtain ⟨L, hi⟩ := ih
    obtain ⟨p, y', L', e', h1, _⟩ := reserve_inv (cfg := cfg) hi hn hr
    rw [e'] at e
    cases e
    exact ⟨L', h1⟩
  | write _ hp _ ih =>
    obtain ⟨L, hi⟩ := ih
    exact ⟨L, write_inv hi hp⟩
  | free _ hp hk hkn e ih =>
    obtain ⟨L, hi⟩ := ih
    obtain ⟨y', e', h1, _⟩ := free_inv hi hp hk hkn
    rw [e'] at e
    cases e
    exact ⟨_, h1⟩

/-- C37: in every state of the page pools that any sequence of calls leads to, `reserve_page` on any pool returns a page that is not in use, has at
least `PAGE_SIZE` words, whose first `PAGE_SIZE` words are null, and the contents of all pages in use are untouched. -/
theorem C37_reserve {y : PageSys} {H : List (Nat × Nat)} (h : PageReach cfg nr y H) {n : Nat} (hn : 1 ≤ n) (hr : 1 ≤ nr n) :
    ∃ p y', reservePage cfg nr n 2 y = .ok p y' ∧ (∀ m, (p, m) ∉ H) ∧ n ≤ y'.size p ∧ (∀ i, i < n → y'.word p i = .null) ∧
      ∀ q m i, (q, m) ∈ H → y'.word q i = y.word q i := by
  obtain ⟨L, hi⟩ := h.inv
  obtain ⟨p, y', L', e, h1, h2, h3, h4, h5, _⟩ := reserve_inv (cfg := cfg) hi hn hr
  exact ⟨p, y', e, fun m hm => h2 (List.mem_map.2 ⟨_, hm, rfl⟩), (h1.hbig p n (by simp)).2, h3,
    fun q m i hq => h4 q i (List.mem_map.2 ⟨_, hq, rfl⟩)⟩

/-- C37: `free_page` returns, and leaves the pages still in use untouched. -/
theorem C37_free {y : PageSys} {H : List (Nat × Nat)} (h : PageReach cfg nr y H) {n k p : Nat} (hp : (p, n) ∈ H)
    (hk : 1 ≤ k) (hkn : k ≤ n) : ∃ y', freePage k p y = .ok () y' ∧ ∀ q m i, (q, m) ∈ H → q ≠ p → y'.word q i = y.word q i := by
  obtain ⟨L, hi⟩ := h.inv
  obtain ⟨y', e, _, h2, _⟩ := free_inv hi hp hk hkn
  exact ⟨y', e, fun q m i _ hq => h2 q i hq⟩

/-- C37: no page is handed out twice, `nr_pages()` of every pool is the number of pages allocated with its size, and no page is lost: each is in use or
can be reached by following the links of exactly one pool. -/
theorem C37_pages {y : PageSys} {H : List (Nat × Nat)} (h : PageReach cfg nr y H) :
    (H.map Prod.fst).Nodup ∧ (∀ p n, (p, n) ∈ H → p < y.count) ∧
    (∀ n, y.nrPages nr n = ((List.range y.count).filter (fun p => y.size p == n)).length) ∧
    ∃ L : Nat → List Nat, (∀ n, Chain y (y.head n) (L n)) ∧ ∀ p, p < y.count → (∃ n, (p, n) ∈ H) ∨ ∃ n, p ∈ L n ∧ ∀ m, p ∈ L m → m = n := by
  obtain ⟨L, hi⟩ := h.inv
  refine ⟨hi.held, fun p n hp => (hi.all p).2 (.inr (List.mem_map.2 ⟨_, hp, rfl⟩)), hi.nr, L, hi.chain, fun p hp => ?_⟩
  rcases (hi.all p).1 hp with ⟨n, hn⟩ | h
  · exact .inr ⟨n, hn, fun m hm => hi.disj m n p hm hn⟩
  · obtain ⟨⟨q, n⟩, h1, rfl⟩ := List.mem_map.1 h
    exact .inl ⟨n, h1⟩

/-! ## C38 -/

/-- What the variables of a manager do with pages: every variable owns a page and a mask. `create`: the constructor (bdd_var.cpp:116-123). `grow`:
`double_cache` (bdd_var.cpp:60-87): a page for the new mask is reserved, entries are stored in it, the old page is returned to the pool that belongs to
the old mask. `store`: `store_node`. `destroy`: the destructor. -/
inductive VarPages (cfg : Cfg) : PageSys → List (Nat × Nat) → Prop
  | init : VarPages cfg .init []
  | create {y y' : PageSys} {T : List (Nat × Nat)} {p : Nat} : VarPages cfg y T → reservePage cfg nrSimul 64 2 y = .ok p y' →
      VarPages cfg y' ((p, 63) :: T)
  | store {y : PageSys} {T : List (Nat × Nat)} {p m i : Nat} {w : Word} : VarPages cfg y T → (p, m) ∈ T → i ≤ m →
      VarPages cfg { y with word := upd y.word p (upd (y.word p) i w) } T
  | grow {y y1 y2 : PageSys} {T : List (Nat × Nat)} {p m q c k : Nat} : VarPages cfg y T → (p, m) ∈ T → pageCapFor (m + m + 1) = some c →
      reservePage cfg nrSimul c 2 y = .ok q y1 → freePool m = some k → freePage k p y1 = .ok () y2 →
      VarPages cfg y2 ((q, m + m + 1) :: T.erase (p, m))
  | destroy {y y' : PageSys} {T : List (Nat × Nat)} {p m k : Nat} : VarPages cfg y T → (p, m) ∈ T → freePool m = some k →
      freePage k p y = .ok () y' → VarPages cfg y' (T.erase (p, m))

theorem nrSimul_pos {n : Nat} (h1 : 1 ≤ n) (h2 : n ≤ 1048576) : 1 ≤ nrSimul n := by
  unfold nrSimul
  exact (Nat.le_div_iff_mul_le (by omega)).2 (by omega)

theorem ite_some_inv {P : Prop} [Decidable P] {a c : Nat} {o : Option Nat} (h : (if P then some a else o) = some c) : (P ∧ a = c) ∨ o = some c := by
  by_cases hp : P
  · rw [if_pos hp] at h; cases h; exact .inl ⟨hp, rfl⟩
  · rw [if_neg hp] at h; exact .inr h

theorem pageCapFor_le {m c : Nat} (h : pageCapFor m = some c) : m + 1 ≤ c ∧ 64 ≤ c ∧ c ≤ 524288 := by
  unfold pageCapFor at h
  iterate 14 (rcases ite_some_inv h with ⟨h1, h2⟩ | h; · omega)
  cases h

/-- The pool a page used with mask `m` came from. -/
def poolOf (m : Nat) : Nat := if m = 63 then 64 else (pageCapFor m).getD 0

theorem poolOf_grow {m c : Nat} (h : pageCapFor (m + m + 1) = some c) : 63 ≤ m → poolOf (m + m + 1) = c := by
  intro hm
  unfold poolOf
  rw [if_neg (by omega), h]; rfl

theorem map_erase_fst {g : Nat → Nat} {p m : Nat} : ∀ (T : List (Nat × Nat)), (T.map Prod.fst).Nodup → (p, m) ∈ T →
    (T.erase (p, m)).map (fun x => (x.1, g x.2)) = (T.map (fun x => (x.1, g x.2))).erase (p, g m) := by
  intro T
  induction T with
  | nil => intro _ h; cases h
  | cons x T ih =>
    intro hn hm
    rw [List.map_cons, List.nodup_cons] at hn
    rw [List.erase_cons, List.map_cons, List.erase_cons]
    by_cases e : x = (p, m)
    · subst e; simp
    · have hm' : (p, m) ∈ T := (List.mem_cons.1 hm).resolve_left (Ne.symm e)
      have hx : x.1 ≠ p := fun h => hn.1 (h ▸ List.mem_map.2 ⟨_, hm', rfl⟩)
      rw [if_neg (by simpa using e), if_neg (by simp [hx]), List.map_cons, ih hn.2 hm']

/-- What the variables do with pages is a use of the page pools as above. -/
theorem VarPages.reach {y : PageSys} {T : List (Nat × Nat)} (h : VarPages cfg y T) :
    PageReach cfg nrSimul y (T.map (fun x => (x.1, poolOf x.2))) ∧ ∀ p m, (p, m) ∈ T → 63 ≤ m ∧ m + 1 ≤ poolOf m := by
  have hnd : ∀ {y : PageSys} {T : List (Nat × Nat)}, PageReach cfg nrSimul y (T.map (fun x => (x.1, poolOf x.2))) → (T.map Prod.fst).Nodup := by
    intro y T h
    have := (C37_pages h).1
    rwa [List.map_map] at this
  induction h with
  | init => exact ⟨.init, fun p m h => by cases h⟩
  | @create y y' T p _ e ih =>
    have r : PageReach cfg nrSimul y' ((p, 64) :: T.map (fun x => (x.1, poolOf x.2))) := .reserve ih.1 (by omega) (by decide) e
    refine ⟨r, fun p m hm => ?_⟩
    rcases List.mem_cons.1 hm with h | h
    · cases h; exact ⟨by omega, by decide⟩
    · exact ih.2 p m h
  | @store y T p m i w _ hp hi ih =>
    have := (ih.2 _ _ hp).2
    have hpm : (p, poolOf m) ∈ T.map (fun x => (x.1, poolOf x.2)) := List.mem_map.2 ⟨_, hp, rfl⟩
    exact ⟨.write ih.1 hpm (by omega), ih.2⟩
  | @grow y y1 y2 T p m q c k _ hp hc e1 hk e2 ih =>
    obtain ⟨h63, hm1⟩ := ih.2 p m hp
    obtain ⟨c1, c2, c3⟩ := pageCapFor_le hc
    have r1 : PageReach cfg nrSimul y1 ((q, c) :: T.map (fun x => (x.1, poolOf x.2))) := .reserve ih.1 (by omega) (nrSimul_pos (by omega) (by omega)) e1
    have hpm : (p, poolOf m) ∈ T.map (fun x => (x.1, poolOf x.2)) := List.mem_map.2 ⟨_, hp, rfl⟩
    have hk' : k = m + 1 := by
      unfold freePool at hk
      split at hk
      · cases hk; rfl
      · cases hk
    have r2 := PageReach.free r1 (List.mem_cons_of_mem _ hpm) (by omega) (by omega) e2
    have hqp : q ≠ p := by
      have := (C37_pages r1).1
      rw [List.map_cons, List.nodup_cons] at this
      rintro rfl
      exact this.1 (List.mem_map.2 ⟨_, hpm, rfl⟩)
    rw [List.erase_cons, if_neg (by simp [hqp]), ← map_erase_fst T (hnd ih.1) hp] at r2
    refine ⟨by rw [List.map_cons, poolOf_grow hc h63]; exact r2, fun p' m' hm' => ?_⟩
    rcases List.mem_cons.1 hm' with h | h
    · cases h
      refine ⟨by omega, by rw [poolOf_grow hc h63]; omega⟩
    · exact ih.2 p' m' (List.erase_subset h)
  | @destroy y y' T p m k _ hp hk e ih =>
    obtain ⟨h63, hm1⟩ := ih.2 p m hp
    have hk' : k = m + 1 := by
      unfold freePool at hk
      split at hk
      · cases hk; rfl
      · cases hk
    have hpm : (p, poolOf m) ∈ T.map (fun x => (x.1, poolOf x.2)) := List.mem_map.2 ⟨_, hp, rfl⟩
    have r2 := PageReach.free ih.1 hpm (by omega) (by omega) e
    rw [← map_erase_fst T (hnd ih.1) hp] at r2
    exact ⟨r2, fun p' m' hm' => ih.2 p' m' (List.erase_subset hm')⟩

/-- C38: although pages wander between pools of different sizes, every page a variable uses with mask `m` was allocated with at least `m+1` words, no two
variables share a page, and the page `double_cache` gets for its doubled mask is null in all slots the new mask reaches (the debug check of
bdd_var.cpp:73-74), without touching the pages of other variables. -/
theorem C38_pages_exchanged {y : PageSys} {T : List (Nat × Nat)} (h : VarPages cfg y T) :
    (T.map Prod.fst).Nodup ∧ (∀ p m, (p, m) ∈ T → m + 1 ≤ y.size p) ∧
    ∀ p m c, (p, m) ∈ T → pageCapFor (m + m + 1) = some c → ∃ q y', reservePage cfg nrSimul c 2 y = .ok q y' ∧ (∀ k, (q, k) ∉ T) ∧ m + m + 2 ≤ y'.size q ∧
      (∀ i, i ≤ m + m + 1 → y'.word q i = .null) ∧ ∀ r k i, (r, k) ∈ T → y'.word r i = y.word r i := by
  obtain ⟨h1, h2⟩ := h.reach
  obtain ⟨L, hi⟩ := h1.inv
  refine ⟨by have := hi.held; rwa [List.map_map] at this, fun p m hp => ?_, fun p m c hp hc => ?_⟩
  · have := (hi.hbig p (poolOf m) (List.mem_map.2 ⟨_, hp, rfl⟩)).2
    have := (h2 p m hp).2
    omega
  · obtain ⟨c1, c2, c3⟩ := pageCapFor_le hc
    obtain ⟨q, y', e, g1, g2, g3, g4⟩ := C37_reserve h1 (n := c) (by omega) (nrSimul_pos (by omega) (by omega))
    refine ⟨q, y', e, fun k hk => g1 (poolOf k) (List.mem_map.2 ⟨_, hk, rfl⟩), by omega, fun i hi => g3 i (by omega), fun r k i hr => ?_⟩
    exact g4 r (poolOf k) i (List.mem_map.2 ⟨_, hr, rfl⟩)

end

/-! ## Concrete instances -/

/-- C37, C38: two variables whose tables have grown, one to 128 and one to 256 slots; the second growth of the latter returned a page of 256 words to the
pool for pages of 128 words. -/
example (cfg : Cfg) : ∃ y p q, VarPages cfg y [(q, 255), (p, 127)] := by
  have grow : ∀ {y : PageSys} {T : List (Nat × Nat)} {p m c k : Nat}, VarPages cfg y T → (p, m) ∈ T → pageCapFor (m + m + 1) = some c →
      freePool m = some k → 1 ≤ k → k ≤ poolOf m → ∃ q y', VarPages cfg y' ((q, m + m + 1) :: T.erase (p, m)) := by
    intro y T p m c k h hp hc hk h1 h2
    obtain ⟨q, y1, e1, g1, _⟩ := (C38_pages_exchanged h).2.2 p m c hp hc
    obtain ⟨c1, c2, c3⟩ := pageCapFor_le hc
    have r1 : PageReach cfg nrSimul y1 ((q, c) :: T.map (fun x => (x.1, poolOf x.2))) :=
      .reserve h.reach.1 (by omega) (nrSimul_pos (by omega) (by omega)) e1
    obtain ⟨y2, e2, _⟩ := C37_free r1 (p := p) (n := poolOf m) (List.mem_cons_of_mem _ (List.mem_map.2 ⟨_, hp, rfl⟩)) h1 h2
    exact ⟨q, y2, .grow h hp hc e1 hk e2⟩
  obtain ⟨p, y1, e1, _⟩ := C37_reserve (cfg := cfg) (nr := nrSimul) .init (n := 64) (by decide) (by decide)
  obtain ⟨p, y2, h2⟩ := grow (.create .init e1) (List.mem_cons_self ..) (c := 256) rfl (k := 64) rfl (by decide) (by decide)
  rw [List.erase_cons_head] at h2
  obtain ⟨q, y3, e3, _⟩ := C37_reserve h2.reach.1 (n := 64) (by decide) (by decide)
  obtain ⟨q, y4, h4⟩ := grow (.create h2 e3) (List.mem_cons_self ..) (c := 256) rfl (k := 64) rfl (by decide) (by decide)
  rw [List.erase_cons_head] at h4
  obtain ⟨q, y5, h5⟩ := grow h4 (List.mem_cons_self ..) (c := 512) rfl (k := 128) rfl (by decide) (by decide)
  rw [List.erase_cons_head] at h5
  exact ⟨y5, p, q, h5⟩

/-- The pools' template arguments: for the sizes that occur `NR_SIMUL_ALLOC` is positive. -/
example : nrSimul 64 = 16384 ∧ nrSimul 1024 = 1024 ∧ nrSimul 1048576 = 1 := by decide

end LBDD
