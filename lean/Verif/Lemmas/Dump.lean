import Verif.Spec.Dump
import Mathlib.Data.List.Basic
import Mathlib.Tactic.SplitIfs

/-! # Lemmas about the graphviz text -/
namespace CGraph
open Spec

/-! ## Numbers -/

theorem digitChar_word (d : Nat) : wordChar (digitChar d) = true := by
  by_cases h : d < 16
  · revert d; decide
  · have : digitChar d = '0' := by
      unfold digitChar
      rw [List.getD_eq_getElem?_getD, List.getElem?_eq_none (by simpa using h)]; rfl
    rw [this]; decide

theorem digitChar_inj {a b : Nat} (ha : a < 16) (hb : b < 16) (h : digitChar a = digitChar b) : a = b := by
  have : ∀ a < 16, ∀ b < 16, digitChar a = digitChar b → a = b := by decide
  exact this a ha b hb h

theorem numeralGo_word (b f n : Nat) : ∀ c ∈ numeralGo b f n, wordChar c = true := by
  induction f generalizing n with
  | zero => intro c h; cases h
  | succ f ih =>
    intro c h
    simp only [numeralGo] at h
    split_ifs at h
    · rw [List.mem_singleton] at h; rw [h]; exact digitChar_word _
    · rcases List.mem_append.mp h with h | h
      · exact ih _ c h
      · rw [List.mem_singleton] at h; rw [h]; exact digitChar_word _

theorem numeral_word (b n : Nat) : ∀ c ∈ numeral b n, wordChar c = true := numeralGo_word b _ n

theorem numeralGo_ne (b f n : Nat) : numeralGo b (f + 1) n ≠ [] := by
  simp only [numeralGo]; split_ifs <;> simp

theorem numeralGo_inj {b : Nat} (hb : 2 ≤ b) (hb' : b ≤ 16) : ∀ (f g n m : Nat), n < f → m < g →
    numeralGo b f n = numeralGo b g m → n = m := by
  intro f
  induction f with
  | zero => intro g n m h; omega
  | succ f ih =>
    intro g n m hn hm h
    cases g with
    | zero => omega
    | succ g =>
      have div : ∀ k x, ¬ x < b → x < k + 1 → x / b < k := by
        intro k x hx hk
        have : x / b < x := Nat.div_lt_self (by omega) (by omega)
        omega
      have md : ∀ x, x % b < 16 := fun x => Nat.lt_of_lt_of_le (Nat.mod_lt _ (by omega)) hb'
      have pos : ∀ k x, ¬ x < b → x < k + 1 → ∃ k', k = k' + 1 := fun k x hx hk => ⟨k - 1, by omega⟩
      simp only [numeralGo] at h
      split_ifs at h with h1 h2 h2
      · exact digitChar_inj (by omega) (by omega) (by simpa using h)
      · obtain ⟨k, rfl⟩ := pos g m h2 hm
        have := congrArg List.length h
        have h3 := List.length_pos_iff.mpr (numeralGo_ne b k (m / b))
        simp at this
        exact absurd this (numeralGo_ne b k _)
      · obtain ⟨k, rfl⟩ := pos f n h1 hn
        have := congrArg List.length h
        simp at this
        exact absurd this (numeralGo_ne b k _)
      · have h3 := List.append_inj' h rfl
        have h4 := ih g _ _ (div f n h1 hn) (div g m h2 hm) h3.1
        have h5 := digitChar_inj (md n) (md m) (by simpa using h3.2)
        rw [← Nat.div_add_mod n b, ← Nat.div_add_mod m b, h4, h5]

theorem numeral_inj {b : Nat} (hb : 2 ≤ b) (hb' : b ≤ 16) {n m : Nat} (h : numeral b n = numeral b m) : n = m :=
  numeralGo_inj hb hb' _ _ _ _ (Nat.lt_succ_self n) (Nat.lt_succ_self m) h

theorem pAddr_inj {a b : Nat} (h : pAddr a = pAddr b) : a = b :=
  numeral_inj (by omega) (by omega) (List.append_cancel_left h)

/-! ## Words and quoted texts -/

/-- Reading `a` from `s` gives `s'` and the tokens `t`. -/
def Lx (s : LexSt) (a : List Char) (s' : LexSt) (t : List DTok) : Prop := lexRun s a = some (s', t)

theorem Lx.nil {s : LexSt} : Lx s [] s [] := rfl

theorem Lx.app {s s1 s2 : LexSt} {a b : List Char} {t1 t2 : List DTok} (h1 : Lx s a s1 t1) (h2 : Lx s1 b s2 t2) :
    Lx s (a ++ b) s2 (t1 ++ t2) := by
  unfold Lx at *
  induction a generalizing s t1 with
  | nil => cases h1; simpa using h2
  | cons c a ih =>
    simp only [List.cons_append, lexRun] at h1 ⊢
    cases hs : lexStep s c with
    | none => rw [hs] at h1; cases h1
    | some r =>
      rw [hs] at h1
      simp only [Option.bind_some] at h1 ⊢
      cases hr : lexRun r.1 a with
      | none => rw [hr] at h1; cases h1
      | some q =>
        rw [hr] at h1
        simp only [Option.map_some, Option.some.injEq, Prod.mk.injEq] at h1
        obtain ⟨rfl, rfl⟩ := h1
        rw [ih hr]
        simp

theorem Lx.word {w a : List Char} (h : ∀ c ∈ a, wordChar c = true) : Lx (.word w) a (.word (w ++ a)) [] := by
  unfold Lx
  induction a generalizing w with
  | nil => simp [lexRun]
  | cons c a ih =>
    have hc := h c List.mem_cons_self
    simp only [lexRun, lexStep, hc, if_true, Option.bind_some]
    rw [ih fun c' h' => h c' (List.mem_cons_of_mem _ h')]
    simp

theorem Lx.text {w a : List Char} (h : PlainTxt a) : Lx (.text w) a (.text (w ++ a)) [] := by
  unfold Lx
  induction a generalizing w with
  | nil => simp [lexRun]
  | cons c a ih =>
    have h1 : c ≠ '"' := fun e => h.1 (e ▸ List.mem_cons_self)
    have h2 : c ≠ '\\' := fun e => h.2 (e ▸ List.mem_cons_self)
    simp only [lexRun, lexStep, h1, h2, if_false, Option.bind_some]
    rw [ih ⟨fun e => h.1 (List.mem_cons_of_mem _ e), fun e => h.2 (List.mem_cons_of_mem _ e)⟩]
    simp

theorem pAddr_word (e : Eid) : ∀ c ∈ pAddr e, wordChar c = true := by
  intro c h
  rcases List.mem_append.mp h with h | h
  · have : ∀ c ∈ "p0x".toList, wordChar c = true := by decide
    exact this c h
  · exact numeral_word _ _ c h

theorem word_plain {a : List Char} (h : ∀ c ∈ a, wordChar c = true) : PlainTxt a :=
  ⟨fun e => absurd (h _ e) (by decide), fun e => absurd (h _ e) (by decide)⟩

theorem Lx.addr {w : List Char} {e : Eid} : Lx (.word w) (pAddr e) (.word (w ++ pAddr e)) [] := Lx.word (pAddr_word e)

theorem Lx.addr0 {e : Eid} : Lx .idle (pAddr e) (.word (pAddr e)) [] := by
  have h1 : Lx .idle ['p'] (.word ['p']) [] := rfl
  have h2 := h1.app (Lx.word (w := ['p']) (a := "0x".toList ++ numeral 16 e) (by
    intro c h
    exact pAddr_word e c (List.mem_cons_of_mem _ h)))
  exact h2

theorem plain_append {a b : List Char} (h1 : PlainTxt a) (h2 : PlainTxt b) : PlainTxt (a ++ b) :=
  ⟨fun h => (List.mem_append.mp h).elim h1.1 h2.1, fun h => (List.mem_append.mp h).elim h1.2 h2.2⟩

theorem plain_lit {a : List Char} (h : (a.all fun c => c != '"' && c != '\\') = true) : PlainTxt a := by
  rw [List.all_eq_true] at h
  exact ⟨fun e => by simpa using h _ e, fun e => by simpa using h _ e⟩

/-! ## Statements -/

/-- The reader is where a statement can begin, with `cur` read so far. -/
def AtStart (s : PSt) (stack : List (List Char × List Dot)) (cur : List Dot) : Prop :=
  s = ⟨stack, cur, .start, false⟩ ∨ ∃ c d, cur = c ++ [d] ∧ s = ⟨stack, c, .after d, false⟩

theorem AtStart.word {s : PSt} {stack : List (List Char × List Dot)} {cur : List Dot} (h : AtStart s stack cur)
    (w : List Char) : pStep s (.word w) = pStart stack cur (.word w) := by
  rcases h with rfl | ⟨c, d, rfl, rfl⟩ <;> rfl

theorem AtStart.rbrace {s : PSt} {stack : List (List Char × List Dot)} {cur : List Dot} (h : AtStart s stack cur) :
    pStep s .rbrace = pStart stack cur .rbrace := by
  rcases h with rfl | ⟨c, d, rfl, rfl⟩ <;> rfl

theorem pRun_append (s : PSt) (a b : List DTok) : pRun s (a ++ b) = (pRun s a).bind fun s' => pRun s' b := by
  induction a generalizing s with
  | nil => rfl
  | cons t a ih =>
    simp only [List.cons_append, pRun]
    cases pStep s t with
    | none => rfl
    | some s' => exact ih s'

/-- The text `a` says the statements `ds`. -/
def Says (a : List Char) (ds : List Dot) : Prop :=
  ∃ t, Lx .idle a .idle t ∧ ∀ s stack cur, AtStart s stack cur → ∃ s', pRun s t = some s' ∧ AtStart s' stack (cur ++ ds)

theorem Says.nil : Says [] [] := ⟨[], Lx.nil, fun s stack cur h => ⟨s, rfl, by simpa using h⟩⟩

theorem Says.app {a b : List Char} {x y : List Dot} (h1 : Says a x) (h2 : Says b y) : Says (a ++ b) (x ++ y) := by
  obtain ⟨t1, l1, p1⟩ := h1
  obtain ⟨t2, l2, p2⟩ := h2
  refine ⟨t1 ++ t2, l1.app l2, fun s stack cur h => ?_⟩
  obtain ⟨s1, r1, h1⟩ := p1 s stack cur h
  obtain ⟨s2, r2, h2⟩ := p2 s1 stack _ h1
  exact ⟨s2, by rw [pRun_append, r1]; exact r2, by rw [← List.append_assoc]; exact h2⟩

theorem Says.flatMap {α : Type} {f : α → List Char} {g : α → List Dot} (l : List α) (h : ∀ x ∈ l, Says (f x) (g x)) :
    Says (l.flatMap f) (l.flatMap g) := by
  induction l with
  | nil => exact Says.nil
  | cons x l ih =>
    simp only [List.flatMap_cons]
    exact (h x List.mem_cons_self).app (ih fun y hy => h y (List.mem_cons_of_mem _ hy))

/-- A statement that begins with an address. -/
theorem says_stmt {e : Eid} {a : List Char} {t : List DTok} {d : Dot}
    (h1 : Lx (.word (pAddr e)) a .idle (.word (pAddr e) :: t))
    (h2 : ∀ stack cur, ∃ s', pRun ⟨stack, cur, .one (pAddr e), false⟩ t = some s' ∧ AtStart s' stack (cur ++ [d])) :
    Says (pAddr e ++ a) [d] := by
  refine ⟨_, Lx.addr0.app h1, fun s stack cur h => ?_⟩
  obtain ⟨s', r, hs⟩ := h2 stack cur
  refine ⟨s', ?_, hs⟩
  have hne : pAddr e ≠ "subgraph".toList := by
    intro h
    have := congrArg List.head? h
    revert this
    simp [pAddr]
  show pRun s (.word (pAddr e) :: t) = _
  rw [pRun, h.word]
  simp only [pStart, if_neg hne, Option.bind_some]
  exact r


/-! ## The pieces -/

namespace DumpEnv

theorem title_eq (v : DumpEnv) (e : Eid) : v.title e = caption v e := rfl

theorem title_plain {v : DumpEnv} (h : PlainNames v) (e : Eid) : PlainTxt (v.title e) := by
  unfold title
  split_ifs
  · exact word_plain (pAddr_word e)
  · exact h.1 e

theorem perfInfo_plain {v : DumpEnv} (h : PlainNames v) (e : Eid) : PlainTxt (v.perfInfo e) := by
  unfold perfInfo
  cases hp : v.perf e with
  | none => exact ⟨by simp, by simp⟩
  | some t =>
    obtain ⟨h1, h2, h3, h4⟩ := h.2 e t hp
    refine plain_append (plain_lit (by decide)) (plain_append h1 (plain_append (plain_lit (by decide)) (plain_append h2
      (plain_append (plain_lit (by decide)) (plain_append h3 (plain_append ?_ (plain_lit (by decide))))))))
    cases ht : t.total with
    | none => exact ⟨by simp, by simp⟩
    | some x => exact plain_append (plain_lit (by decide)) (h4 x ht)

/-- The node statement of an element. -/
def nodeStmt (v : DumpEnv) (e : Eid) : Dot :=
  match v.kind e with
  | .fence => .node (pAddr e) [("label".toList, v.title e ++ v.perfInfo e), ("shape".toList, "box".toList)]
  | .coordinator => .node (pAddr e) [("label".toList, v.title e ++ v.perfInfo e), ("shape".toList, "diamond".toList)]
  | _ => .node (pAddr e) [("label".toList, v.title e ++ v.perfInfo e)]

def elementStmts (v : DumpEnv) (e : Eid) : List Dot :=
  v.nodeStmt e :: (if v.kind e = .plain ∧ v.loop e > 1 then
    [.edge (pAddr e) (pAddr e) [("label".toList, numeral 10 (v.loop e))]] else [])

theorem lx_header {v : DumpEnv} (h : PlainNames v) (e : Eid) :
    Lx (.word (pAddr e)) ("[label=\"".toList ++ (v.title e ++ v.perfInfo e)) (.text (v.title e ++ v.perfInfo e))
      [.word (pAddr e), .lsq, .word "label".toList, .eq] := by
  have h1 : Lx (.word (pAddr e)) "[label=\"".toList (.text []) [.word (pAddr e), .lsq, .word "label".toList, .eq] := rfl
  have h2 := Lx.text (w := []) (plain_append (title_plain h e) (perfInfo_plain h e))
  exact h1.app h2

theorem says_element {v : DumpEnv} (h : PlainNames v) (e : Eid) : Says (v.element e) (v.elementStmts e) := by
  have plainCase : Says (pAddr e ++ ("[label=\"".toList ++ (v.title e ++ v.perfInfo e) ++ "\"];\n".toList))
      [.node (pAddr e) [("label".toList, v.title e ++ v.perfInfo e)]] := by
    refine says_stmt ((lx_header h e).app (s2 := .idle) (t2 := [.text (v.title e ++ v.perfInfo e), .rsq, .semi]) rfl) ?_
    intro stack cur
    exact ⟨_, rfl, .inl rfl⟩
  have loopCase : Says (pAddr e ++ (" -> ".toList ++ (pAddr e ++ ("[label=\"".toList ++ (numeral 10 (v.loop e) ++ "\"];\n".toList)))))
      [.edge (pAddr e) (pAddr e) [("label".toList, numeral 10 (v.loop e))]] := by
    have l1 : Lx (.word (pAddr e)) " -> ".toList .idle [.word (pAddr e), .arrow] := rfl
    have l2 : Lx (.word (pAddr e)) "[label=\"".toList (.text []) [.word (pAddr e), .lsq, .word "label".toList, .eq] := rfl
    have l3 : Lx (.text []) (numeral 10 (v.loop e)) (.text (numeral 10 (v.loop e))) [] :=
      Lx.text (w := []) (word_plain (numeral_word _ _))
    have l4 : Lx (.text (numeral 10 (v.loop e))) "\"];\n".toList .idle [.text (numeral 10 (v.loop e)), .rsq, .semi] := rfl
    refine says_stmt (l1.app (Lx.addr0.app (l2.app (l3.app l4)))) ?_
    intro stack cur
    exact ⟨_, rfl, .inl rfl⟩
  have norm : ∀ x, v.header e ++ (v.perfInfo e ++ x) = pAddr e ++ ("[label=\"".toList ++ (v.title e ++ v.perfInfo e) ++ x) := by
    intro x; simp [header]
  have usual : v.kind e ≠ .fence → v.kind e ≠ .coordinator →
      v.element e = v.header e ++ (v.perfInfo e ++ ("\"];\n".toList ++
        (if v.kind e = .plain ∧ v.loop e > 1 then
          pAddr e ++ (" -> ".toList ++ (pAddr e ++ ("[label=\"".toList ++ (numeral 10 (v.loop e) ++ "\"];\n".toList))))
        else []))) ∧ v.nodeStmt e = .node (pAddr e) [("label".toList, v.title e ++ v.perfInfo e)] := by
    intro h1 h2
    have hc : (decide (v.loop e > 1) && !v.isGroup e) = true ↔ v.kind e = .plain ∧ v.loop e > 1 := by
      unfold isGroup; cases hk : v.kind e <;> simp_all
    constructor
    · have he : v.element e = v.header e ++ (v.perfInfo e ++ ("\"];\n".toList ++
          (if (decide (v.loop e > 1) && !v.isGroup e) = true then
            pAddr e ++ (" -> ".toList ++ (pAddr e ++ ("[label=\"".toList ++ (numeral 10 (v.loop e) ++ "\"];\n".toList))))
          else []))) := by
        unfold element
        cases hk : v.kind e with
        | fence => exact absurd hk h1
        | coordinator => exact absurd hk h2
        | _ => rfl
      rw [he]
      by_cases hl : v.kind e = .plain ∧ v.loop e > 1
      · rw [if_pos (hc.mpr hl), if_pos hl]
      · rw [if_neg (fun x => hl (hc.mp x)), if_neg hl]
    · unfold nodeStmt
      cases hk : v.kind e with
      | fence => exact absurd hk h1
      | coordinator => exact absurd hk h2
      | _ => rfl
  by_cases h1 : v.kind e = .fence
  · have hs : v.elementStmts e =
        [.node (pAddr e) [("label".toList, v.title e ++ v.perfInfo e), ("shape".toList, "box".toList)]] := by
      simp [elementStmts, nodeStmt, h1]
    have hd : v.element e = v.header e ++ (v.perfInfo e ++ "\", shape=box]\n".toList) := by simp only [element, h1]
    rw [hs, hd, norm]
    refine says_stmt ((lx_header h e).app (s2 := .idle)
      (t2 := [.text (v.title e ++ v.perfInfo e), .comma, .word "shape".toList, .eq, .word "box".toList, .rsq]) rfl) ?_
    intro stack cur
    exact ⟨_, rfl, .inr ⟨_, _, rfl, rfl⟩⟩
  · by_cases h2 : v.kind e = .coordinator
    · have hs : v.elementStmts e =
          [.node (pAddr e) [("label".toList, v.title e ++ v.perfInfo e), ("shape".toList, "diamond".toList)]] := by
        simp [elementStmts, nodeStmt, h2]
      have hd : v.element e = v.header e ++ (v.perfInfo e ++ "\", shape=diamond]\n".toList) := by simp only [element, h2]
      rw [hs, hd, norm]
      refine says_stmt ((lx_header h e).app (s2 := .idle)
        (t2 := [.text (v.title e ++ v.perfInfo e), .comma, .word "shape".toList, .eq, .word "diamond".toList, .rsq]) rfl) ?_
      intro stack cur
      exact ⟨_, rfl, .inr ⟨_, _, rfl, rfl⟩⟩
    · obtain ⟨u1, u2⟩ := usual h1 h2
      rw [u1]
      unfold elementStmts
      rw [u2, norm, ← List.append_assoc, ← List.append_assoc]
      rw [List.append_assoc (pAddr e)]
      by_cases hl : v.kind e = .plain ∧ v.loop e > 1
      · rw [if_pos hl, if_pos hl]
        exact plainCase.app loopCase
      · rw [if_neg hl, if_neg hl]
        exact plainCase.app Says.nil

/-- `a` is empty or one bracket, which adds the attributes `l` to an edge. -/
def Optn (a : List Char) (l : List (List Char × List Char)) : Prop :=
  ∃ t, Lx .idle a .idle t ∧ (∀ stack cur x y m, pRun ⟨stack, cur, .after (.edge x y m), false⟩ t =
    some ⟨stack, cur, .after (.edge x y (m ++ l)), false⟩) ∧ (a = [] ∨ ∃ b, a = '[' :: b)

theorem Optn.none : Optn [] [] := ⟨[], Lx.nil, fun _ _ _ _ m => by simp [pRun], .inl rfl⟩

theorem Optn.app {a b : List Char} {l m : List (List Char × List Char)} (h1 : Optn a l) (h2 : Optn b m) :
    Optn (a ++ b) (l ++ m) := by
  obtain ⟨t1, l1, p1, c1⟩ := h1
  obtain ⟨t2, l2, p2, c2⟩ := h2
  refine ⟨t1 ++ t2, l1.app l2, fun stack cur x y k => ?_, ?_⟩
  · rw [pRun_append, p1, ← List.append_assoc]; exact p2 _ _ _ _ _
  · rcases c1 with rfl | ⟨x, rfl⟩
    · exact c2
    · exact .inr ⟨_, rfl⟩

theorem Lx.from_word {w a : List Char} {s : LexSt} {t : List DTok} (h : ∃ c b, a = c :: b ∧ wordChar c = false)
    (h1 : Lx .idle a s t) : Lx (.word w) a s (.word w :: t) := by
  obtain ⟨c, b, rfl, hc⟩ := h
  unfold Lx at *
  simp only [lexRun, lexStep, hc, Bool.false_eq_true, if_false] at h1 ⊢
  cases hi : lexIdle c with
  | none => rw [hi] at h1; cases h1
  | some r =>
    rw [hi] at h1
    simp only [Option.bind_some, Option.map_some] at h1 ⊢
    cases hr : lexRun r.1 b with
    | none => rw [hr] at h1; cases h1
    | some q =>
      rw [hr] at h1
      simp only [Option.map_some, Option.some.injEq, Prod.mk.injEq] at h1 ⊢
      obtain ⟨rfl, rfl⟩ := h1
      simp

/-- The attributes of an edge after the label. -/
def edgeAttrs (v : DumpEnv) (src dst : Eid) : List (List Char × List Char) :=
  (if v.isGroup src then [("ltail".toList, "cluster_".toList ++ pAddr src)] else []) ++
  (if v.isGroup dst then [("lhead".toList, "cluster_".toList ++ pAddr dst)] else []) ++
  (if v.longest src && v.longest dst then [("color".toList, "red".toList)] else [])

theorem says_arrow (src dst : Eid) {A B C : List Char} {a b c : List (List Char × List Char)} (hA : Optn A a) (hB : Optn B b)
    (hC : Optn C c) : Says (pAddr src ++ (" -> ".toList ++ (pAddr dst ++ (A ++ (B ++ (C ++ ";\n".toList))))))
      [.edge (pAddr src) (pAddr dst) (a ++ (b ++ c))] := by
  have l1 : Lx (.word (pAddr src)) " -> ".toList .idle [.word (pAddr src), .arrow] := rfl
  obtain ⟨t, hl, hp, hc⟩ := (hA.app (hB.app hC))
  have hX : Lx (.word (pAddr dst)) (A ++ (B ++ (C ++ ";\n".toList))) .idle (.word (pAddr dst) :: (t ++ [.semi])) := by
    have h0 := hl.app (s2 := .idle) (b := ";\n".toList) (t2 := [.semi]) rfl
    simp only [List.append_assoc] at h0
    refine Lx.from_word ?_ h0
    rcases hc with hc | ⟨x, hc⟩
    · simp only [List.append_eq_nil_iff] at hc
      obtain ⟨rfl, rfl, rfl⟩ := hc
      exact ⟨';', _, rfl, by decide⟩
    · refine ⟨'[', x ++ ";\n".toList, ?_, by decide⟩
      rw [← List.cons_append, ← hc]; simp only [List.append_assoc]
  refine says_stmt (l1.app (Lx.addr0.app hX)) ?_
  intro stack cur
  refine ⟨⟨stack, cur ++ [_], .start, false⟩, ?_, .inl rfl⟩
  have h1 : pRun ⟨stack, cur, .one (pAddr src), false⟩ ([.arrow] ++ ([] ++ .word (pAddr dst) :: (t ++ [.semi]))) =
      pRun ⟨stack, cur, .after (.edge (pAddr src) (pAddr dst) []), false⟩ (t ++ [.semi]) := rfl
  show pRun ⟨stack, cur, .one (pAddr src), false⟩ ([.arrow] ++ ([] ++ .word (pAddr dst) :: (t ++ [.semi]))) = _
  rw [h1, pRun_append, hp]
  rfl

theorem optn_label (i : Nat) : Optn ("[label=\"".toList ++ (numeral 10 i ++ "\"]".toList)) [("label".toList, numeral 10 i)] := by
  have l2 : Lx .idle "[label=\"".toList (.text []) [.lsq, .word "label".toList, .eq] := rfl
  have l3 : Lx (.text []) (numeral 10 i) (.text (numeral 10 i)) [] := Lx.text (w := []) (word_plain (numeral_word _ _))
  have l4 : Lx (.text (numeral 10 i)) "\"]".toList .idle [.text (numeral 10 i), .rsq] := rfl
  exact ⟨_, l2.app (l3.app l4), fun stack cur a b l => rfl, .inr ⟨_, rfl⟩⟩

theorem says_edge (v : DumpEnv) (src dst : Eid) {A : List Char} {a : List (List Char × List Char)} (hA : Optn A a) :
    Says (v.edge src dst A) [.edge (pAddr src) (pAddr dst) (a ++ v.edgeAttrs src dst)] := by
  have t1 : Lx .idle "[ltail=cluster_".toList (.word "cluster_".toList) [.lsq, .word "ltail".toList, .eq] := rfl
  have t2 : Lx .idle "[lhead=cluster_".toList (.word "cluster_".toList) [.lsq, .word "lhead".toList, .eq] := rfl
  have t3 : ∀ w, Lx (.word w) "]".toList .idle [.word w, .rsq] := fun w => rfl
  have t4 : ∀ w, Lx (.word w) " lhead=cluster_".toList (.word "cluster_".toList) [.word w, .word "lhead".toList, .eq] :=
    fun w => rfl
  have hC : Optn (if (v.longest src && v.longest dst) = true then "[color=red]".toList else [])
      (if (v.longest src && v.longest dst) = true then [("color".toList, "red".toList)] else []) := by
    split_ifs
    · exact ⟨[.lsq, .word "color".toList, .eq, .word "red".toList, .rsq], rfl, fun stack cur a b l => rfl, .inr ⟨_, rfl⟩⟩
    · exact Optn.none
  unfold edge edgeAttrs
  cases v.isGroup src <;> cases v.isGroup dst
  · exact says_arrow src dst hA Optn.none hC
  · exact says_arrow src dst hA
      ⟨_, t2.app (Lx.addr.app (t3 _)), fun stack cur a b l => rfl, .inr ⟨_, rfl⟩⟩ hC
  · exact says_arrow src dst hA
      ⟨_, t1.app (Lx.addr.app (t3 _)), fun stack cur a b l => rfl, .inr ⟨_, rfl⟩⟩ hC
  · refine says_arrow src dst hA (b := [("ltail".toList, "cluster_".toList ++ pAddr src), ("lhead".toList, "cluster_".toList ++ pAddr dst)])
      ⟨_, t1.app (Lx.addr.app ((t4 _).app (Lx.addr.app (t3 _)))), fun stack cur a b l => ?_, .inr ⟨_, rfl⟩⟩ hC
    have : ∀ x y : List Char × List Char, l ++ [x, y] = (l ++ [x]) ++ [y] := by intro x y; simp
    rw [this]; rfl

/-! ## Whole trees -/

def relStmts (v : DumpEnv) (e : Eid) : List Dot :=
  (v.succs e).flatMap fun d => [.edge (pAddr e) (pAddr d) (v.edgeAttrs e d)]

theorem says_relations (v : DumpEnv) (e : Eid) : Says (v.relations e) (v.relStmts e) :=
  Says.flatMap _ fun d _ => says_edge v e d Optn.none

def styleStmts (v : DumpEnv) (e : Eid) : List Dot :=
  match v.kind e with
  | .condition => [.node (pAddr e) [("shape".toList, "diamond".toList)], .set "color".toList "blue".toList]
  | .some => [.node (pAddr e) [("shape".toList, "point".toList), ("height".toList, "0".toList)],
      .set "color".toList "blue".toList, .set "style".toList "dashed".toList]
  | _ => [.node (pAddr e) [("shape".toList, "point".toList), ("height".toList, "0".toList)],
      .set "color".toList "blue".toList]

theorem says_lines {e : Eid} {a : List Char} {t : List DTok} {ds : List Dot}
    (h1 : Lx (.word (pAddr e)) a .idle (.word (pAddr e) :: t))
    (h2 : ∀ stack cur, pRun ⟨stack, cur, .one (pAddr e), false⟩ t = some ⟨stack, cur ++ ds, .start, false⟩) :
    Says (pAddr e ++ a) ds := by
  refine ⟨_, Lx.addr0.app h1, fun s stack cur h => ⟨_, ?_, .inl rfl⟩⟩
  have hne : pAddr e ≠ "subgraph".toList := by
    intro h
    have := congrArg List.head? h
    revert this
    simp [pAddr]
  show pRun s (.word (pAddr e) :: t) = _
  rw [pRun, h.word]
  simp only [pStart, if_neg hne, Option.bind_some]
  exact h2 stack cur

theorem says_style (v : DumpEnv) (e : Eid) : Says (v.groupStyle e) (v.styleStmts e) := by
  have c1 : ∀ (cur : List Dot) a b, cur ++ [a, b] = (cur ++ [a]) ++ [b] := by intros; simp
  have c2 : ∀ (cur : List Dot) a b c, cur ++ [a, b, c] = ((cur ++ [a]) ++ [b]) ++ [c] := by intros; simp
  have h1 : Says (pAddr e ++ "[shape=diamond];\ncolor=blue;\n".toList)
      [.node (pAddr e) [("shape".toList, "diamond".toList)], .set "color".toList "blue".toList] :=
    says_lines (t := [.lsq, .word "shape".toList, .eq, .word "diamond".toList, .rsq, .semi, .word "color".toList, .eq,
      .word "blue".toList, .semi]) rfl fun stack cur => by rw [c1]; rfl
  have h2 : Says (pAddr e ++ "[shape=point height=0];\ncolor=blue;\n".toList)
      [.node (pAddr e) [("shape".toList, "point".toList), ("height".toList, "0".toList)], .set "color".toList "blue".toList] :=
    says_lines (t := [.lsq, .word "shape".toList, .eq, .word "point".toList, .word "height".toList, .eq, .word "0".toList, .rsq,
      .semi, .word "color".toList, .eq, .word "blue".toList, .semi]) rfl fun stack cur => by rw [c1]; rfl
  have h3 : Says (pAddr e ++ "[shape=point height=0];\ncolor=blue;style=dashed;\n".toList)
      [.node (pAddr e) [("shape".toList, "point".toList), ("height".toList, "0".toList)], .set "color".toList "blue".toList,
        .set "style".toList "dashed".toList] :=
    says_lines (t := [.lsq, .word "shape".toList, .eq, .word "point".toList, .word "height".toList, .eq, .word "0".toList, .rsq,
      .semi, .word "color".toList, .eq, .word "blue".toList, .semi, .word "style".toList, .eq, .word "dashed".toList, .semi]) rfl
      fun stack cur => by rw [c2]; rfl
  unfold groupStyle styleStmts
  cases v.kind e with
  | condition => exact h1
  | some => exact h3
  | _ => exact h2

/-- The label of a cluster. -/
def boxLabel (v : DumpEnv) (e : Eid) : List Char :=
  v.title e ++ ((if v.loop e > 1 then "(loop=".toList ++ (numeral 10 (v.loop e) ++ ")".toList) else []) ++ v.perfInfo e)

theorem says_group {v : DumpEnv} (h : PlainNames v) (e : Eid) {a : List Char} {ds : List Dot} (ha : Says a ds) :
    Says (v.groupBegin e ++ (a ++ "}\n".toList))
      [.sub ("cluster_".toList ++ pAddr e) (.set "label".toList (v.boxLabel e) :: ds)] := by
  obtain ⟨t, hl, hp⟩ := ha
  have l1 : Lx .idle "subgraph cluster_".toList (.word "cluster_".toList) [.word "subgraph".toList] := rfl
  have l2 : ∀ w, Lx (.word w) " {\nlabel=\"".toList (.text []) [.word w, .lbrace, .word "label".toList, .eq] := fun w => rfl
  have hb : PlainTxt (v.boxLabel e) := by
    refine plain_append (title_plain h e) (plain_append ?_ (perfInfo_plain h e))
    split_ifs
    · exact plain_append (plain_lit (by decide)) (plain_append (word_plain (numeral_word _ _)) (plain_lit (by decide)))
    · exact ⟨by simp, by simp⟩
  have l3 : Lx (.text []) (v.boxLabel e) (.text (v.boxLabel e)) [] := Lx.text (w := []) hb
  have l4 : Lx (.text (v.boxLabel e)) "\";\n".toList .idle [.text (v.boxLabel e), .semi] := rfl
  have l5 : Lx .idle "}\n".toList .idle [.rbrace] := rfl
  have hw := l1.app ((Lx.addr (e := e)).app ((l2 _).app (l3.app (l4.app (hl.app l5)))))
  have hg : v.groupBegin e ++ (a ++ "}\n".toList) = "subgraph cluster_".toList ++ (pAddr e ++ (" {\nlabel=\"".toList ++
      (v.boxLabel e ++ ("\";\n".toList ++ (a ++ "}\n".toList))))) := by
    have gen : ∀ a b c t l p q x : List Char, (a ++ (b ++ (c ++ (t ++ (l ++ (p ++ q)))))) ++ x =
        a ++ (b ++ (c ++ ((t ++ (l ++ p)) ++ (q ++ x)))) := by intros; simp
    exact gen _ _ _ _ _ _ _ _
  rw [hg]
  refine ⟨_, hw, fun s stack cur hs => ?_⟩
  obtain ⟨s', hr, hs'⟩ := hp ⟨("cluster_".toList ++ pAddr e, cur) :: stack, [.set "label".toList (v.boxLabel e)], .start, false⟩
    _ _ (.inl rfl)
  have e1 : pRun s ([.word "subgraph".toList] ++ ([] ++ ([.word ("cluster_".toList ++ pAddr e), .lbrace, .word "label".toList, .eq] ++
      ([] ++ ([.text (v.boxLabel e), .semi] ++ (t ++ [.rbrace])))))) =
      pRun ⟨("cluster_".toList ++ pAddr e, cur) :: stack, [.set "label".toList (v.boxLabel e)], .start, false⟩ (t ++ [.rbrace]) := by
    show (pStep s (.word "subgraph".toList)).bind _ = _
    rw [hs.word]
    rfl
  refine ⟨⟨stack, cur ++ [_], .start, false⟩, ?_, .inl rfl⟩
  rw [e1, pRun_append, hr]
  show (pStep s' .rbrace).bind _ = _
  rw [hs'.rbrace]
  rfl

mutual
/-- The statements of a tree. -/
def stmts (v : DumpEnv) : DumpTree → List Dot
  | .node e cs =>
    match v.kind e with
    | .plain | .fence | .coordinator | .mutable => v.elementStmts e ++ v.relStmts e
    | .cluster => v.elementStmts e ++ ([.sub ("cluster_".toList ++ pAddr e) (.set "label".toList (v.boxLabel e) ::
        (v.styleStmts e ++ v.stmtsChain none cs))] ++ v.relStmts e)
    | .region | .some => v.elementStmts e ++ ([.sub ("cluster_".toList ++ pAddr e) (.set "label".toList (v.boxLabel e) ::
        (v.styleStmts e ++ v.stmtss cs))] ++ v.relStmts e)
    | .condition => v.elementStmts e ++ ([.sub ("cluster_".toList ++ pAddr e) (.set "label".toList (v.boxLabel e) ::
        (v.styleStmts e ++ v.stmtsChoice e 0 cs))] ++ v.relStmts e)
def stmtss (v : DumpEnv) : List DumpTree → List Dot
  | [] => []
  | t :: ts => v.stmts t ++ v.stmtss ts
def stmtsChain (v : DumpEnv) : Option Eid → List DumpTree → List Dot
  | _, [] => []
  | none, .node e cs :: ts => v.stmts (.node e cs) ++ v.stmtsChain (some e) ts
  | some p, .node e cs :: ts => v.stmts (.node e cs) ++ ([.edge (pAddr p) (pAddr e) (v.edgeAttrs p e)] ++ v.stmtsChain (some e) ts)
def stmtsChoice (v : DumpEnv) (g : Eid) : Nat → List DumpTree → List Dot
  | _, [] => []
  | i, .node e cs :: ts => v.stmts (.node e cs) ++
      ([.edge (pAddr g) (pAddr e) ([("label".toList, numeral 10 i)] ++ v.edgeAttrs g e)] ++ v.stmtsChoice g (i + 1) ts)
end

theorem says_box {v : DumpEnv} (h : PlainNames v) (e : Eid) {a : List Char} {ds : List Dot} (ha : Says a ds) :
    Says (v.element e ++ (v.groupBegin e ++ (v.groupStyle e ++ (a ++ ("}\n".toList ++ v.relations e)))))
      (v.elementStmts e ++ ([.sub ("cluster_".toList ++ pAddr e) (.set "label".toList (v.boxLabel e) ::
        (v.styleStmts e ++ ds))] ++ v.relStmts e)) := by
  have := (says_element h e).app ((says_group h e ((says_style v e).app ha)).app (says_relations v e))
  have gen : ∀ a b c d f g : List Char, a ++ (b ++ (c ++ (d ++ (f ++ g)))) = a ++ ((b ++ ((c ++ d) ++ f)) ++ g) := by
    intros; simp
  rw [gen]
  exact this

mutual
theorem says_dump {v : DumpEnv} (h : PlainNames v) : ∀ t : DumpTree, Says (v.dump t) (v.stmts t)
  | .node e cs => by
    unfold dump stmts
    cases v.kind e with
    | plain => exact (says_element h e).app (says_relations v e)
    | fence => exact (says_element h e).app (says_relations v e)
    | coordinator => exact (says_element h e).app (says_relations v e)
    | «mutable» => exact (says_element h e).app (says_relations v e)
    | cluster => exact says_box h e (says_chain h none cs)
    | region => exact says_box h e (says_dumps h cs)
    | some => exact says_box h e (says_dumps h cs)
    | condition => exact says_box h e (says_choice h e 0 cs)
theorem says_dumps {v : DumpEnv} (h : PlainNames v) : ∀ ts : List DumpTree, Says (v.dumps ts) (v.stmtss ts)
  | [] => Says.nil
  | t :: ts => (says_dump h t).app (says_dumps h ts)
theorem says_chain {v : DumpEnv} (h : PlainNames v) : ∀ (p : Option Eid) (ts : List DumpTree),
    Says (v.dumpChain p ts) (v.stmtsChain p ts)
  | none, [] => Says.nil
  | some _, [] => Says.nil
  | none, .node e cs :: ts => (says_dump h (.node e cs)).app (says_chain h (some e) ts)
  | some p, .node e cs :: ts => (says_dump h (.node e cs)).app ((says_edge v p e Optn.none).app (says_chain h (some e) ts))
theorem says_choice {v : DumpEnv} (h : PlainNames v) (g : Eid) : ∀ (i : Nat) (ts : List DumpTree),
    Says (v.dumpChoice g i ts) (v.stmtsChoice g i ts)
  | _, [] => Says.nil
  | i, .node e cs :: ts => (says_dump h (.node e cs)).app ((says_edge v g e (optn_label i)).app (says_choice h g (i + 1) ts))
end

/-- The text of a pipeline is read as these statements. -/
theorem read_pipeline {v : DumpEnv} (h : PlainNames v) (ts : List DumpTree) :
    readDot (v.pipeline ts) = some (.set "compound".toList "true".toList :: v.stmtss ts) := by
  obtain ⟨t, hl, hp⟩ := says_dumps h ts
  have l1 : Lx .idle "\ndigraph CGraph {\ncompound=true;\n".toList .idle [.word "digraph".toList, .word "CGraph".toList, .lbrace,
      .word "compound".toList, .eq, .word "true".toList, .semi] := rfl
  have l2 : Lx .idle "}\n\n".toList .idle [.rbrace] := rfl
  have hw : lexRun .idle (v.pipeline ts) = _ := l1.app (hl.app l2)
  unfold readDot
  rw [hw]
  obtain ⟨s', hr, hs'⟩ := hp ⟨[], [.set "compound".toList "true".toList], .start, false⟩ _ _ (.inl rfl)
  have e1 : pRun ⟨[], [], .start, false⟩ ([.word "compound".toList, .eq, .word "true".toList, .semi] ++ (t ++ [.rbrace])) =
      some ⟨[], .set "compound".toList "true".toList :: v.stmtss ts, .start, true⟩ := by
    show pRun ⟨[], [.set "compound".toList "true".toList], .start, false⟩ (t ++ [.rbrace]) = _
    rw [pRun_append, hr]
    show (pStep s' .rbrace).bind _ = _
    rw [hs'.rbrace]
    rfl
  show (if "digraph".toList = "digraph".toList then
      match pRun ⟨[], [], .start, false⟩ ([.word "compound".toList, .eq, .word "true".toList, .semi] ++ (t ++ [.rbrace])) with
      | some s => if s.fin then some s.cur else none
      | none => none
    else none) = _
  rw [if_pos rfl, e1]
  rfl

end DumpEnv
end CGraph
