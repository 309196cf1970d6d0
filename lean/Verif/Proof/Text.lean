import Verif.Model.Text
import Verif.Spec.Text
import Verif.Proof.Query
/-! The text written by `print`: reading it back. -/
namespace LBDD

theorem dec_digits (n : Nat) : ∀ c ∈ dec n, c.isDigit = true := fun c h => Nat.isDigit_of_mem_toDigits (by omega) (by omega) h

theorem dec_ne_nil (n : Nat) : dec n ≠ [] := by
  intro h
  have := Nat.ofDigitChars_ten_toDigits (n := n)
  unfold dec at h
  have h2 := congrArg List.length h
  simp at h2

theorem takeWhile_append_all {l r : List Char} (hl : ∀ c ∈ l, c.isDigit = true) (hr : ∀ c, r.head? = some c → c.isDigit = false) :
    (l ++ r).takeWhile Char.isDigit = l ∧ (l ++ r).dropWhile Char.isDigit = r := by
  induction l with
  | nil =>
    cases r with
    | nil => simp
    | cons c r => have := hr c rfl; simp [this]
  | cons c l ih =>
    have hc := hl c (by simp)
    obtain ⟨h1, h2⟩ := ih (fun c h => hl c (by simp [h]))
    simp [hc, h1, h2]

theorem readNat_dec (n : Nat) {r : List Char} (hr : ∀ c, r.head? = some c → c.isDigit = false) : readNat (dec n ++ r) = some (n, r) := by
  obtain ⟨h1, h2⟩ := takeWhile_append_all (dec_digits n) hr
  unfold readNat
  rw [h1, h2]
  have : (dec n).isEmpty = false := by
    cases h : dec n with
    | nil => exact absurd h (dec_ne_nil n)
    | cons _ _ => rfl
  rw [this]
  unfold dec
  simp

theorem readLit_append (w : String) (r : List Char) : readLit w (w.toList ++ r) = some r := by
  unfold readLit
  have : w.toList.isPrefixOf (w.toList ++ r) = true := by simp
  rw [this]; simp

theorem textLines_line : ∀ (l : List Char) (r : List Char), '\n' ∉ l → textLines (l ++ '\n' :: r) = l :: textLines r
  | [], r, _ => by simp [textLines]
  | c :: l, r, h => by
    have hc : c ≠ '\n' := fun e => h (by simp [e])
    have := textLines_line l r (fun e => h (by simp [e]))
    simp [textLines, hc, this]

theorem not_newline_dec (n : Nat) : '\n' ∉ dec n := fun h => by have := dec_digits n _ h; revert this; decide

/-! ### `print` -/

/-- Text of a node name. -/
def DotId.text : DotId → List Char
  | .bot => "bot".toList
  | .top => "top".toList
  | .node v a => "\"".toList ++ dec v ++ ",".toList ++ dec a ++ "\"".toList

/-- Text of an arc, without the newline. -/
def arcText (e : DotId × Bool × DotId) : List Char :=
  e.1.text ++ " -> ".toList ++ e.2.2.text ++ (if e.2.1 then " [label=\"1\"]" else " [label=\"0\"]").toList

theorem readId_text (i : DotId) {r : List Char} : readId (i.text ++ r) = some (i, r) := by
  cases i with
  | bot => unfold readId DotId.text; rw [readLit_append]
  | top =>
    unfold readId DotId.text
    have : readLit "bot" ("top".toList ++ r) = none := by simp [readLit, List.isPrefixOf]
    rw [this, readLit_append]
  | node v a =>
    unfold readId DotId.text
    have h1 : readLit "bot" ("\"".toList ++ dec v ++ ",".toList ++ dec a ++ "\"".toList ++ r) = none := by simp [readLit, List.isPrefixOf]
    have h2 : readLit "top" ("\"".toList ++ dec v ++ ",".toList ++ dec a ++ "\"".toList ++ r) = none := by simp [readLit, List.isPrefixOf]
    rw [h1, h2]
    simp only [List.append_assoc]
    rw [readLit_append]
    simp only [Option.bind_eq_bind, Option.bind_some]
    rw [readNat_dec v (by intro c hc; simp at hc; subst hc; decide)]
    simp only [Option.bind_some]
    rw [readLit_append]
    simp only [Option.bind_some]
    rw [readNat_dec a (by intro c hc; simp at hc; subst hc; decide)]
    simp only [Option.bind_some]
    rw [readLit_append]
    rfl

theorem readArc_text (e : DotId × Bool × DotId) : readArc (arcText e) = some e := by
  obtain ⟨i, b, j⟩ := e
  unfold readArc arcText
  simp only [List.append_assoc]
  rw [readId_text]
  simp only [Option.bind_eq_bind, Option.bind_some]
  rw [readLit_append]
  simp only [Option.bind_some]
  rw [readId_text]
  simp only [Option.bind_some]
  cases b
  · simp only [Bool.false_eq_true, if_false, if_true]
  · have : (" [label=\"1\"]".toList : List Char) ≠ " [label=\"0\"]".toList := by decide
    simp only [if_true]
    rw [if_neg this]

theorem not_newline_id (i : DotId) : '\n' ∉ i.text := by
  cases i with
  | bot => decide
  | top => decide
  | node v a => simp [DotId.text, not_newline_dec]

theorem not_newline_arc (e : DotId × Bool × DotId) : '\n' ∉ arcText e := by
  obtain ⟨i, b, j⟩ := e
  cases b <;> simp [arcText, not_newline_id]

theorem textLines_arcs (r : List Char) : ∀ (l : List (DotId × Bool × DotId)),
    textLines (l.flatMap (fun e => arcText e ++ ['\n']) ++ r) = l.map arcText ++ textLines r
  | [] => rfl
  | e :: l => by
    simp only [List.flatMap_cons, List.append_assoc, List.map_cons, List.cons_append]
    rw [textLines_line _ _ (not_newline_arc e), List.nil_append, textLines_arcs r l]

theorem readArcs_map : ∀ (l : List (DotId × Bool × DotId)), (l.map arcText).mapM readArc = some l
  | [] => rfl
  | e :: l => by simp [readArc_text, readArcs_map l]

/-- A drawing written line by line is read back exactly. -/
theorem readDrawing_text (l : List (DotId × Bool × DotId)) :
    readDrawing ("digraph BDD {\n".toList ++ l.flatMap (fun e => arcText e ++ ['\n']) ++ "}\n".toList) = some l := by
  unfold readDrawing
  have h1 : "digraph BDD {\n".toList = "digraph BDD {".toList ++ ['\n'] := by decide
  have h2 : textLines "}\n".toList = ["}".toList] := by decide
  rw [h1]
  simp only [List.append_assoc, List.cons_append]
  rw [textLines_line _ _ (by decide), List.nil_append, textLines_arcs, h2]
  have h3 : (l.map arcText ++ ["}".toList]).getLast? = some "}".toList := by simp
  have h4 : (l.map arcText ++ ["}".toList]).dropLast = l.map arcText := by simp
  simp only [h3, h4, and_self, if_true]
  exact readArcs_map l

section
variable {cfg : Cfg} {md : Md} {refs : Nat → Nat} {s : Mgr}

/-- The two arcs of a node as they appear in the drawing. -/
def dotArcs (cfg : Cfg) (s : Mgr) (q : Nat) : List (DotId × Bool × DotId) :=
  [(dotId cfg s q, false, dotId cfg s (s.cells q).lo), (dotId cfg s q, true, dotId cfg s (s.cells q).hi)]

theorem nodeId_ok (hi : Inv cfg md refs s) {p : Nat} {t : Tree} (h : Repr s.cells p t) {s' : Mgr} (hc : s'.cells = s.cells) :
    nodeId cfg p s' = .ok (dotId cfg s p).text s' := by
  unfold nodeId
  rw [M.bind_ok (isBot_congr hc (isBot_ok hi h))]
  by_cases h0 : p = 0
  · subst h0; rfl
  · simp only [h0, decide_false, Bool.false_eq_true, if_false]
    rw [M.bind_ok (isTop_congr hc (isTop_ok hi h))]
    by_cases h1 : p = 1
    · subst h1; rfl
    · simp only [h1, decide_false, Bool.false_eq_true, if_false]
      rw [M.get_bind_apply, hc]
      have h2 : 2 ≤ p := by omega
      have hl := hi.live_of h
      simp only [hl, Bool.not_true, Bool.false_eq_true, if_false]
      have : dotId cfg s p = .node (s.cells p).index (cfg.addr p) := by
        unfold dotId botId topId; rw [if_neg h0, if_neg h1]
      rw [this]; rfl

theorem printLine_ok (hi : Inv cfg md refs s) {p q : Nat} {t u : Tree} (h : Repr s.cells p t) (hq : Repr s.cells q u) (b : Bool) {s' : Mgr}
    (hc : s'.cells = s.cells) : printLine cfg p q b s' = .ok (arcText (dotId cfg s p, b, dotId cfg s q) ++ ['\n']) s' := by
  unfold printLine
  rw [M.bind_ok (nodeId_ok hi h hc), M.bind_ok (nodeId_ok hi hq hc)]
  have : (if b then " [label=\"1\"]\n" else " [label=\"0\"]\n").toList = (if b then " [label=\"1\"]" else " [label=\"0\"]").toList ++ ['\n'] := by
    cases b <;> decide
  rw [this]
  unfold arcText
  simp only [List.append_assoc]
  rfl

/-- `print_rec` visits the nodes in the order of `visit` and writes the two arcs of each of them. -/
theorem printRec_ok (hi : Inv cfg md refs s) : ∀ (n p : Nat) (t : Tree), Repr s.cells p t → t.height + 1 ≤ n →
    ∀ m : Nat → Bool, (2 ≤ p → m p = false) → ∃ l m', visit cfg false n p { s with marks := m } = .ok l { s with marks := m' } ∧
      printRec cfg n p { s with marks := m } = .ok ((l.flatMap (dotArcs cfg s)).flatMap fun e => arcText e ++ ['\n']) { s with marks := m' } := by
  intro n
  induction n with
  | zero => intro p t _ h; omega
  | succ n ih =>
    intro p t hp hn m hm
    unfold visit printRec
    rw [M.bind_ok (isTerm_ok hi hp (s' := { s with marks := m }) rfl), M.bind_ok (isTerm_ok hi hp (s' := { s with marks := m }) rfl)]
    by_cases h2 : p < 2
    · simp only [h2, decide_true, if_true]
      exact ⟨[], m, rfl, rfl⟩
    · simp only [h2, decide_false, Bool.false_eq_true, if_false]
      have h2' : 2 ≤ p := by omega
      obtain ⟨tl, th, rfl, hl, _, h3, h4⟩ := hp.inv h2'
      simp only [Tree.height] at hn
      have hmp := hm h2'
      rw [M.bind_ok (getMark_ok { s with marks := m } p), M.assert_bind_apply (by simp [hmp]), M.bind_ok (getMark_ok { s with marks := m } p),
        M.assert_bind_apply (by simp [hmp]), M.bind_ok (setMark_ok { s with marks := m } p true), M.bind_ok (setMark_ok { s with marks := m } p true),
        M.bind_ok (lowOf_congr hi h2' hl (s' := { s with marks := upd m p true }) rfl),
        M.bind_ok (lowOf_congr hi h2' hl (s' := { s with marks := upd m p true }) rfl),
        M.bind_ok (printLine_ok hi hp h3 false (s' := { s with marks := upd m p true }) rfl),
        M.bind_ok (highOf_congr hi h2' hl (s' := { s with marks := upd m p true }) rfl),
        M.bind_ok (printLine_ok hi hp h4 true (s' := { s with marks := upd m p true }) rfl)]
      have sub : ∀ (q : Nat) (tq : Tree), Repr s.cells q tq → tq.height + 1 ≤ n → ∀ m, ∃ l m',
          ifUnmarked (visit cfg false n) q { s with marks := m } = .ok l { s with marks := m' } ∧
          printIfUnmarked (printRec cfg n) q { s with marks := m } =
            .ok ((l.flatMap (dotArcs cfg s)).flatMap fun e => arcText e ++ ['\n']) { s with marks := m' } := by
        intro q tq hq hqn m
        unfold ifUnmarked printIfUnmarked
        rw [M.bind_ok (getMark_ok { s with marks := m } q), M.bind_ok (getMark_ok { s with marks := m } q)]
        cases e : m q with
        | true => simp only [e, if_true]; exact ⟨[], m, rfl, rfl⟩
        | false =>
          simp only [e, Bool.false_eq_true, if_false]
          exact ih q tq hq hqn m (fun _ => e)
      obtain ⟨l1, m2, e1, f1⟩ := sub _ _ h3 (by omega) (upd m p true)
      rw [M.bind_ok e1, M.bind_ok f1, M.bind_ok (highOf_congr hi h2' hl (s' := { s with marks := m2 }) rfl)]
      obtain ⟨l2, m3, e2, f2⟩ := sub _ _ h4 (by omega) m2
      rw [M.bind_ok e2, M.bind_ok f2]
      refine ⟨_, m3, rfl, ?_⟩
      simp only [List.flatMap_cons, List.flatMap_append, dotArcs, List.flatMap_nil, List.append_nil, List.append_assoc]
      rfl

theorem printText_ok (hi : Inv cfg md refs s) {p : Nat} {t : Tree} (hp : Repr s.cells p t) :
    ∃ l, Lists s.cells p l ∧ (2 ≤ p → ∃ l', l = p :: l') ∧ printText cfg p s = .ok
      ("digraph BDD {\n".toList ++ (l.flatMap (dotArcs cfg s)).flatMap (fun e => arcText e ++ ['\n']) ++ "}\n".toList) s := by
  have hlv : ∀ q, 2 ≤ q → Reaches s.cells p q → s.marks q = false := fun q h2 hr => hi.mark q h2 (hr.live_or hi hp)
  obtain ⟨l, s1, e1, e2, h, _, h'⟩ := visit_unmark hi false hp
  obtain ⟨l2, m2, e3, e4⟩ := printRec_ok hi (fuel1 s) p t hp (by have := hi.ht _ _ hp; unfold fuel1; omega) s.marks (fun h2 => hlv p h2 (.refl _))
  have e5 : visit cfg false (fuel1 s) p s = .ok l2 { s with marks := m2 } := e3
  rw [e1] at e5
  injection e5 with h1 h2
  subst h1; subst h2
  refine ⟨l, h, h' rfl, ?_⟩
  unfold printText
  have e6 : printRec cfg (fuel1 s) p s = _ := e4
  rw [M.get_bind_apply, M.bind_ok e6, M.bind_ok e2]
  rfl

end
end LBDD
