import Verif.Lemmas.Codec

/-! # C62, C76: the storage codec -/
namespace CGraph
open Spec

/-- The types of the examples: class 0 is a tree (a string, a number of four bytes, the children). -/
def treeEnv : REnv := fun _ => [(1, .str), (2, .fixed 4), (3, .vec (.cls 0))]

def treeVal : RVal :=
  .obj [.str [65, 66], .fixed [1, 2, 3, 4],
    .vec [.obj [.str [], .fixed [0, 0, 0, 9], .vec []],
      .obj [.str [67], .fixed [0, 0, 0, 7], .vec [.obj [.str [68], .fixed [5, 5, 5, 5], .vec []]]]]]

/-- C62: for all types and all values (with at least one field in every class, and less than `2^64` bytes), writing stays
inside the buffer of exactly `getSize` bytes, and reading these bytes gives the value back, with any bound for the steps
that is large enough. -/
theorem C62_roundtrip_partial (env : REnv) (hne : ∀ c, env c ≠ []) (v : RVal) (t : RTy) (h : OfTy env v t)
    (hz : reflSize env v t < 2 ^ 64) :
    ∃ d, saveBytes env v t = some d ∧ d.length = reflSize env v t ∧
      ∀ fuel, readSteps v ≤ fuel → loadBytes env fuel d t = .ok v := by
  have hw := write_at env v t 0 ⟨List.replicate (reflSize env v t) 0, 0, reflSize env v t, 0⟩ []
    (List.replicate (reflSize env v t) 0) [] h (by simp) (by simp) (by simp)
  refine ⟨enc env v t 0, ?_, enc_length env v t 0 h, fun fuel hf => ?_⟩
  · simp only [saveBytes, hw]; simp
  · rw [loadBytes, read_at env hne v t 0 fuel _ [] [] h (by simpa using hz) hf (by simp) (by simp)]
    rfl

example : OfTy treeEnv treeVal (.cls 0) ∧ reflSize treeEnv treeVal (.cls 0) < 2 ^ 64 ∧ (∀ c, treeEnv c ≠ []) := by
  refine ⟨by simp [OfTy, OfTyAll, OfTyFields, treeVal, treeEnv], by decide +kernel, fun c => by simp [treeEnv]⟩

/-- C62: two values of a type with the same bytes are equal. -/
theorem C62_injective (env : REnv) (hne : ∀ c, env c ≠ []) (v w : RVal) (t : RTy) (hv : OfTy env v t) (hw : OfTy env w t)
    (hz : reflSize env v t < 2 ^ 64) (he : saveBytes env v t = saveBytes env w t) : v = w := by
  obtain ⟨d, hd, hl, h1⟩ := C62_roundtrip_partial env hne v t hv hz
  have hz' : reflSize env w t < 2 ^ 64 := by
    have := write_at env w t 0 ⟨List.replicate (reflSize env w t) 0, 0, reflSize env w t, 0⟩ []
      (List.replicate (reflSize env w t) 0) [] hw (by simp) (by simp) (by simp)
    have hs : saveBytes env w t = some (enc env w t 0) := by simp only [saveBytes, this]; simp
    rw [he, hs, Option.some.injEq] at hd
    rw [← enc_length env w t 0 hw, hd, hl]; exact hz
  obtain ⟨d', hd', _, h2⟩ := C62_roundtrip_partial env hne w t hw hz'
  rw [he, hd', Option.some.injEq] at hd
  subst hd
  have := (h1 (readSteps v + readSteps w) (by omega)).symm.trans (h2 (readSteps v + readSteps w) (by omega))
  exact Except.ok.inj this

/-- C62: writing a value into a larger buffer changes only its own bytes, and the place moves by exactly `getSize`. -/
theorem C62_in_place (env : REnv) (v : RVal) (t : RTy) (id : UInt8) (s : RSess) (h : OfTy env v t)
    (hr : s.base + s.offset + reflSize env v t ≤ s.data.length) :
    ∃ s', reflWrite env s v t id = some s' ∧ s'.offset = s.offset + reflSize env v t ∧
      s'.data.take (s.base + s.offset) = s.data.take (s.base + s.offset) ∧
      s'.data.drop (s.base + s.offset + reflSize env v t) = s.data.drop (s.base + s.offset + reflSize env v t) := by
  have e := enc_length env v t id h
  have hw := write_at env v t id s (s.data.take (s.base + s.offset))
    ((s.data.drop (s.base + s.offset)).take (reflSize env v t))
    (s.data.drop (s.base + s.offset + reflSize env v t)) h
    (by
      have := List.take_append_drop (reflSize env v t) (s.data.drop (s.base + s.offset))
      rw [List.drop_drop] at this
      rw [List.append_assoc, this, List.take_append_drop])
    (by simp; omega) (by simp; omega)
  refine ⟨_, hw, rfl, ?_, ?_⟩
  · rw [List.append_assoc, List.take_append_of_le_length (by simp; omega), List.take_take, Nat.min_self]
  · have : (List.take (s.base + s.offset) s.data ++ enc env v t id).length = s.base + s.offset + reflSize env v t := by
      simp [e]; omega
    rw [← this, List.drop_left]

example : ∃ s : RSess, 0 < s.base ∧ s.base + s.offset + reflSize treeEnv treeVal (.cls 0) ≤ s.data.length :=
  ⟨⟨List.replicate 200 7, 3, 197, 5⟩, by decide +kernel⟩

/-- C62 does not hold for vectors of a class without fields: the vector always comes back empty. -/
theorem C62_empty_class_violated (env : REnv) (c n : Nat) (hc : env c = []) (fuel : Nat) (hf : 2 ≤ fuel) :
    ∃ d, saveBytes env (.vec (List.replicate n (.obj []))) (.vec (.cls c)) = some d ∧
      loadBytes env fuel d (.vec (.cls c)) = .ok (.vec []) := by
  have ht : OfTyAll env (List.replicate n (.obj [])) (.cls c) := by
    induction n with
    | zero => simp [OfTyAll]
    | succ n ih => simp [List.replicate_succ, OfTyAll, OfTy, hc, OfTyFields, ih]
  have hsz : reflSizeAll env (List.replicate n (.obj [])) (.cls c) = 0 := by
    induction n with
    | zero => simp [reflSizeAll]
    | succ n ih =>
      rw [List.replicate_succ, OfTyAll] at ht
      simp [List.replicate_succ, reflSizeAll, reflSize, reflSizeFields, ih ht.2]
  have h : OfTy env (.vec (List.replicate n (.obj []))) (.vec (.cls c)) := by simpa [OfTy] using ht
  have hw := write_at env _ _ 0 ⟨List.replicate (reflSize env (.vec (List.replicate n (.obj []))) (.vec (.cls c))) 0, 0,
    reflSize env (.vec (List.replicate n (.obj []))) (.vec (.cls c)), 0⟩ [] _ [] h (by simp; rfl) (by simp) (by simp)
  have he : encAll env (List.replicate n (.obj [])) (.cls c) 0 = [] := by
    rw [← List.length_eq_zero_iff, encAll_length _ _ _ _ ht, hsz]
  refine ⟨0 :: le 0 8, ?_, ?_⟩
  · simp only [saveBytes, hw]; simp [enc, he]
  · obtain ⟨f, rfl⟩ : ∃ f, fuel = f + 2 := ⟨fuel - 2, by omega⟩
    rfl

/-- C76 does not hold: for every value and every cut of its file, loading the cut file reads outside of the buffer. -/
theorem C76_violated (env : REnv) (hne : ∀ c, env c ≠ []) (v : RVal) (t : RTy) (h : OfTy env v t)
    (hz : reflSize env v t < 2 ^ 64) :
    ∃ d, saveBytes env v t = some d ∧
      ∀ k, k < d.length → ∀ fuel, readSteps v ≤ fuel → loadBytes env fuel (d.take k) t = .error .oob := by
  have hw := write_at env v t 0 ⟨List.replicate (reflSize env v t) 0, 0, reflSize env v t, 0⟩ []
    (List.replicate (reflSize env v t) 0) [] h (by simp) (by simp) (by simp)
  refine ⟨enc env v t 0, by simp only [saveBytes, hw]; simp, fun k hk fuel hf => ?_⟩
  rw [enc_length env v t 0 h] at hk
  rw [loadBytes, read_cut env hne v t 0 fuel _ [] k h (by simpa using hz) hf hk (by simp) (by simp)]
  rfl

example : (saveBytes treeEnv treeVal (.cls 0)).map (fun d => loadBytes treeEnv 20 (d.take 57) (.cls 0)) matches
    some (.error .oob) := by decide +kernel

/-- C76, the part that holds: bytes after the value are ignored. -/
theorem C76_trailing_partial (env : REnv) (hne : ∀ c, env c ≠ []) (v : RVal) (t : RTy) (h : OfTy env v t)
    (hz : reflSize env v t < 2 ^ 64) (post : List UInt8) :
    ∃ d, saveBytes env v t = some d ∧
      ∀ fuel, readSteps v ≤ fuel → loadBytes env fuel (d ++ post) t = .ok v := by
  have hw := write_at env v t 0 ⟨List.replicate (reflSize env v t) 0, 0, reflSize env v t, 0⟩ []
    (List.replicate (reflSize env v t) 0) [] h (by simp) (by simp) (by simp)
  refine ⟨enc env v t 0, by simp only [saveBytes, hw]; simp, fun fuel hf => ?_⟩
  rw [loadBytes, read_at env hne v t 0 fuel _ [] post h (by simpa using hz) hf (by simp) (by simp)]
  rfl

end CGraph
