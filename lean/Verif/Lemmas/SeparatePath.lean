import Verif.Lemmas.Separate

/-! # `checkSeparate` with groups: the paths -/
namespace CGraph
namespace SepCfg
open Spec

/-- `P` is the way from the pipeline down to `x`. -/
inductive Down (c : SepCfg) : List Eid → Eid → Prop where
  | top {x : Eid} : c.belong x = none → Down c [x] x
  | step {P : List Eid} {g x : Eid} : Down c P g → c.belong x = some g → Down c (P ++ [x]) x

theorem down_climb {c : SepCfg} {f : Nat} {x : Eid} {p : List Eid} (h : c.climb f x = some p) : Down c p.reverse x := by
  induction f generalizing x p with
  | zero => cases h
  | succ f ih =>
    simp only [climb] at h
    split at h
    · rename_i hb
      cases h
      exact .top hb
    · rename_i g hb
      cases hg : c.climb f g with
      | none => rw [hg] at h; cases h
      | some q =>
        rw [hg] at h
        cases h
        simp only [List.reverse_cons]
        exact .step (ih hg) hb

theorem climb_some {c : SepCfg} {depth : Eid → Nat} (hd : ∀ e g, c.belong e = some g → depth g < depth e) {f : Nat} {x : Eid}
    (h : depth x < f) : ∃ p, c.climb f x = some p := by
  induction f generalizing x with
  | zero => omega
  | succ f ih =>
    simp only [climb]
    cases hb : c.belong x with
    | none => exact ⟨_, rfl⟩
    | some g =>
      have := hd x g hb
      obtain ⟨p, hp⟩ := ih (x := g) (by omega)
      exact ⟨x :: p, by simp [hp]⟩

theorem down_last {c : SepCfg} {P : List Eid} {x : Eid} (h : Down c P x) : ∃ Q, P = Q ++ [x] := by
  cases h with
  | top _ => exact ⟨[], rfl⟩
  | step _ _ => exact ⟨_, rfl⟩

/-- What comes later on the way lies inside of what comes earlier. -/
theorem down_split {c : SepCfg} {P : List Eid} {x : Eid} (h : Down c P x) :
    (∀ A g B, P = A ++ g :: B → Around c g x) ∧
    (∀ A g k B, P = A ++ g :: k :: B → c.belong k = some g) ∧
    (∀ k B, P = k :: B → c.belong k = none) := by
  induction h with
  | @top x hb =>
    refine ⟨?_, ?_, ?_⟩
    · intro A g B hP
      cases A with
      | nil => simp at hP; rw [← hP.1]; exact .self
      | cons a A => simp at hP
    · intro A g k B hP
      have := congrArg List.length hP
      simp at this
      omega
    · intro k B hP
      simp at hP
      rw [← hP.1]; exact hb
  | @step P g' x hP' hb ih =>
    obtain ⟨ih1, ih2, ih3⟩ := ih
    refine ⟨?_, ?_, ?_⟩
    · intro A g B hP
      cases B using List.reverseRecOn with
      | nil =>
        have := List.append_inj' hP (by simp)
        simp at this
        rw [← this.2]; exact .self
      | append_singleton B z =>
        have h1 : P ++ [x] = (A ++ g :: B) ++ [z] := by rw [hP]; simp
        have h2 := List.append_inj' h1 (by simp)
        simp only [List.cons.injEq, and_true] at h2
        exact .member hb (ih1 A g B h2.1)
    · intro A g k B hP
      cases B using List.reverseRecOn with
      | nil =>
        have h1 : P ++ [x] = (A ++ [g]) ++ [k] := by rw [hP]; simp
        have h2 := List.append_inj' h1 (by simp)
        simp only [List.cons.injEq, and_true] at h2
        obtain ⟨Q, hQ⟩ := down_last hP'
        rw [hQ] at h2
        have h3 := List.append_inj' h2.1 (by simp)
        simp only [List.cons.injEq, and_true] at h3
        rw [← h2.2, ← h3.2]; exact hb
      | append_singleton B z =>
        have h1 : P ++ [x] = (A ++ g :: k :: B) ++ [z] := by rw [hP]; simp
        have h2 := List.append_inj' h1 (by simp)
        exact ih2 A g k B h2.1
    · intro k B hP
      cases B using List.reverseRecOn with
      | nil =>
        have h2 := congrArg List.length hP
        obtain ⟨Q, hQ⟩ := down_last hP'
        rw [hQ] at h2
        simp at h2
      | append_singleton B z =>
        have h1 : P ++ [x] = (k :: B) ++ [z] := by rw [hP]; simp
        have h2 := List.append_inj' h1 (by simp)
        exact ih3 k B h2.1

/-- No element is twice on the way. -/
theorem down_notin {c : SepCfg} {fuel : Nat} (hw : SepWF c fuel) {P : List Eid} {x : Eid} (h : Down c P x) {A B : List Eid}
    {g : Eid} (hP : P = A ++ g :: B) : g ∉ B := by
  intro hg
  obtain ⟨depth, hd, -⟩ := hw.tree
  have key : ∀ B A g, P = A ++ g :: B → ∀ k ∈ B, depth g < depth k := by
    intro B
    induction B with
    | nil => intro A g _ k hk; cases hk
    | cons b B ih =>
      intro A g hP k hk
      have h1 := hd b g ((down_split h).2.1 A g b B hP)
      rcases List.mem_cons.mp hk with rfl | hk
      · exact h1
      · have := ih (A ++ [g]) b (by rw [hP]; simp) k hk
        omega
  exact absurd (key B A g hP g hg) (Nat.lt_irrefl _)

theorem last_cons (a : Eid) (l : List Eid) (acc : Option Eid) :
    l.getLast?.or (some a) = (a :: l).getLast?.or acc := by
  cases l with
  | nil => rfl
  | cons b l =>
    rw [List.getLast?_cons_cons]
    cases h : (b :: l).getLast? with
    | none => simp at h
    | some z => rfl

theorem patchLoop_stop {g : Eid} {l r : List Eid} (acc : Option Eid) (hg : g ∉ l) :
    patchLoop (some g) (l ++ g :: r) acc = l.getLast?.or acc := by
  induction l generalizing acc with
  | nil => simp [patchLoop]
  | cons a l ih =>
    have h1 : ¬ (some a = some g) := by
      intro h; cases h; simp at hg
    simp only [List.cons_append, patchLoop, if_neg h1]
    rw [ih _ (fun h => hg (List.mem_cons_of_mem _ h))]
    exact last_cons a l acc

theorem patchLoop_none {l : List Eid} (acc : Option Eid) : patchLoop none l acc = l.getLast?.or acc := by
  induction l generalizing acc with
  | nil => simp [patchLoop]
  | cons a l ih =>
    simp only [patchLoop]
    rw [if_neg (by simp), ih]
    exact last_cons a l acc

/-- How two ways part. -/
theorem agree_eq (P Q : List Eid) (acc : Option Eid) :
    ∃ pre p q, P = pre ++ p ∧ Q = pre ++ q ∧ (∀ a A b B, p = a :: A → q = b :: B → a ≠ b) ∧
      agree acc P Q = pre.getLast?.or acc := by
  induction P generalizing Q acc with
  | nil => exact ⟨[], [], Q, rfl, rfl, (by intro a A b B h; cases h), by cases Q <;> simp [agree]⟩
  | cons x P ih =>
    cases Q with
    | nil => exact ⟨[], x :: P, [], rfl, rfl, (by intro a A b B _ h; cases h), by simp [agree]⟩
    | cons y Q =>
      by_cases h : x = y
      · subst h
        obtain ⟨pre, p, q, h1, h2, h3, h4⟩ := ih Q (some x)
        refine ⟨x :: pre, p, q, by rw [h1]; rfl, by rw [h2]; rfl, h3, ?_⟩
        simp only [agree, if_true, h4]
        exact last_cons x pre acc
      · refine ⟨[], x :: P, y :: Q, rfl, rfl, ?_, ?_⟩
        · intro a A b B h1 h2
          cases h1; cases h2; exact h
        · simp [agree, h]

/-- What `checkSeparate` answers: one inside of the other, or a level at which the two part. -/
theorem check_cases {c : SepCfg} {fuel : Nat} (hw : SepWF c fuel) {x y : Eid} (hxy : x ≠ y) (hx : c.known x = true)
    (hy : c.known y = true) :
    ((Around c x y ∨ Around c y x) ∧ c.checkSeparate fuel x y = some true) ∨
    (¬ Around c x y ∧ ¬ Around c y x ∧
      ((∃ g p q, p ∈ c.kids g ∧ q ∈ c.kids g ∧ p ≠ q ∧ Around c p x ∧ Around c q y ∧ c.known g = true ∧
          c.checkSeparate fuel x y = c.isSeparate fuel g (some p) (some q)) ∨
        (∃ p q, p ∈ c.top ∧ q ∈ c.top ∧ p ≠ q ∧ Around c p x ∧ Around c q y ∧
          c.checkSeparate fuel x y = c.onPath fuel c.top (some p) (some q)))) := by
  obtain ⟨depth, hd, hdf⟩ := hw.tree
  obtain ⟨P', hP'⟩ := climb_some hd (hdf x hx)
  obtain ⟨Q', hQ'⟩ := climb_some hd (hdf y hy)
  have hP := down_climb hP'
  have hQ := down_climb hQ'
  obtain ⟨pre, p, q, h1, h2, h3, h4⟩ := agree_eq P'.reverse Q'.reverse none
  have hcheck : c.checkSeparate fuel x y =
      (match agree none P'.reverse Q'.reverse with
      | some g =>
        if g = x || g = y then some true
        else c.isSeparate fuel g (getPatch P' (some g) x) (getPatch Q' (some g) y)
      | none => c.onPath fuel c.top (getPatch P' none x) (getPatch Q' none y)) := by
    unfold checkSeparate
    rw [if_neg (by simp [hxy, hx, hy]), hP', hQ']
    rfl
  have known_of : ∀ a b, Around c a b → c.known b = true → c.known a = true := fun a b h hb => holds_known hw h hb
  cases pre using List.reverseRecOn with
  | nil =>
    simp only [List.nil_append] at h1 h2
    obtain ⟨a, A, rfl⟩ : ∃ a A, p = a :: A := by
      cases p with
      | nil => obtain ⟨R, hR⟩ := down_last hP; rw [h1] at hR; simp at hR
      | cons a A => exact ⟨a, A, rfl⟩
    obtain ⟨b, B, rfl⟩ : ∃ b B, q = b :: B := by
      cases q with
      | nil => obtain ⟨R, hR⟩ := down_last hQ; rw [h2] at hR; simp at hR
      | cons a A => exact ⟨a, A, rfl⟩
    have hab := h3 a A b B rfl rfl
    have hax := (down_split hP).1 [] a A h1
    have hby := (down_split hQ).1 [] b B h2
    have ha0 := (down_split hP).2.2 a A h1
    have hb0 := (down_split hQ).2.2 b B h2
    right
    refine ⟨?_, ?_, .inr ⟨a, b, (hw.top_iff a).mpr ⟨known_of a x hax hx, ha0⟩,
      (hw.top_iff b).mpr ⟨known_of b y hby hy, hb0⟩, hab, hax, hby, ?_⟩⟩
    · intro h
      exact hab (holds_unique hw (by rw [ha0, hb0]) (Around.trans hax h) hby)
    · intro h
      exact hab (holds_unique hw (by rw [ha0, hb0]) hax (Around.trans hby h))
    · rw [hcheck, h4]
      simp only [List.getLast?_nil, Option.or_none]
      have e1 : P'.getLast? = some a := by
        rw [← List.reverse_reverse P', h1]; simp
      have e2 : Q'.getLast? = some b := by
        rw [← List.reverse_reverse Q', h2]; simp
      simp only [getPatch, patchLoop_none, e1, e2]
      simp
  | append_singleton pre g =>
    rw [List.append_assoc] at h1 h2
    simp only [List.cons_append, List.nil_append] at h1 h2
    have hag : agree none P'.reverse Q'.reverse = some g := by rw [h4]; simp
    rw [hag] at hcheck
    simp only at hcheck
    have hgx := (down_split hP).1 pre g p h1
    have hgy := (down_split hQ).1 pre g q h2
    by_cases hg : g = x ∨ g = y
    · left
      rw [if_pos (by simpa using hg)] at hcheck
      refine ⟨?_, hcheck⟩
      rcases hg with rfl | rfl
      · exact .inl hgy
      · exact .inr hgx
    · right
      rw [if_neg (by simpa using hg)] at hcheck
      have hgx' : g ≠ x := fun h => hg (.inl h)
      have hgy' : g ≠ y := fun h => hg (.inr h)
      obtain ⟨a, A, rfl⟩ : ∃ a A, p = a :: A := by
        cases p with
        | nil =>
          obtain ⟨R, hR⟩ := down_last hP
          rw [h1] at hR
          have := List.append_inj' hR (by simp)
          simp at this
          exact absurd this.2 hgx'
        | cons a A => exact ⟨a, A, rfl⟩
      obtain ⟨b, B, rfl⟩ : ∃ b B, q = b :: B := by
        cases q with
        | nil =>
          obtain ⟨R, hR⟩ := down_last hQ
          rw [h2] at hR
          have := List.append_inj' hR (by simp)
          simp at this
          exact absurd this.2 hgy'
        | cons a A => exact ⟨a, A, rfl⟩
      have hab := h3 a A b B rfl rfl
      have hax := (down_split hP).1 (pre ++ [g]) a A (by rw [h1]; simp)
      have hby := (down_split hQ).1 (pre ++ [g]) b B (by rw [h2]; simp)
      have ha0 := (down_split hP).2.1 pre g a A h1
      have hb0 := (down_split hQ).2.1 pre g b B h2
      refine ⟨?_, ?_, .inl ⟨g, a, b, (hw.kid_iff g a).mpr ⟨known_of a x hax hx, ha0⟩,
        (hw.kid_iff g b).mpr ⟨known_of b y hby hy, hb0⟩, hab, hax, hby, known_of g x hgx hx, ?_⟩⟩
      · intro h
        exact hab (holds_unique hw (by rw [ha0, hb0]) (Around.trans hax h) hby)
      · intro h
        exact hab (holds_unique hw (by rw [ha0, hb0]) hax (Around.trans hby h))
      · rw [hcheck]
        have e1 : P' = (a :: A).reverse ++ g :: pre.reverse := by
          rw [← List.reverse_reverse P', h1]; simp
        have e2 : Q' = (b :: B).reverse ++ g :: pre.reverse := by
          rw [← List.reverse_reverse Q', h2]; simp
        have n1 : g ∉ (a :: A).reverse := by
          rw [List.mem_reverse]; exact down_notin hw hP h1
        have n2 : g ∉ (b :: B).reverse := by
          rw [List.mem_reverse]; exact down_notin hw hQ h2
        have k1 : getPatch P' (some g) x = some a := by
          unfold getPatch
          rw [if_neg (by simpa using hgx'), e1, patchLoop_stop _ n1]; simp
        have k2 : getPatch Q' (some g) y = some b := by
          unfold getPatch
          rw [if_neg (by simpa using hgy'), e2, patchLoop_stop _ n2]; simp
        rw [k1, k2]

end SepCfg
end CGraph
