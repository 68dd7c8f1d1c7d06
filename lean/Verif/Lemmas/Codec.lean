import Verif.Spec.Codec

/-! # The storage codec: facts -/
namespace CGraph
open Spec

theorem le_length (n k : Nat) : (le n k).length = k := by
  induction k generalizing n with
  | zero => rfl
  | succ k ih => simp [le, ih]

theorem unle_le (n k : Nat) (h : n < 256 ^ k) : unle (le n k) = n := by
  induction k generalizing n with
  | zero => simp at h; simp [le, unle, h]
  | succ k ih =>
    have : n / 256 < 256 ^ k := by
      rw [Nat.div_lt_iff_lt_mul (by decide)]; rwa [Nat.pow_succ] at h
    simp only [le, unle, ih _ this]
    have h2 : (UInt8.ofNat (n % 256)).toNat = n % 256 := by
      simp [UInt8.toNat_ofNat]
    rw [h2]; omega

namespace RSess

theorem put_at {s : RSess} {pre mid post b : List UInt8} (hd : s.data = pre ++ mid ++ post)
    (ho : s.base + s.offset = pre.length) (hl : b.length = mid.length) :
    s.put b = some { s with data := pre ++ b ++ post, offset := s.offset + b.length } := by
  have h1 : s.base + s.offset + b.length ≤ s.data.length := by rw [hd, ho]; simp; omega
  have h2 : poke s.data (s.base + s.offset) b = pre ++ b ++ post := by
    rw [hd, ho, poke, hl]
    simp [List.drop_append]
  rw [put, if_pos h1, h2]

theorem setPos_at {s : RSess} {pre mid post b : List UInt8} {o : Nat} (hd : s.data = pre ++ mid ++ post)
    (ho : s.base + o = pre.length) (hl : b.length = mid.length) :
    s.setPos o b = some { s with data := pre ++ b ++ post } := by
  have h1 : s.base + o + b.length ≤ s.data.length := by rw [hd, ho]; simp; omega
  have h2 : poke s.data (s.base + o) b = pre ++ b ++ post := by
    rw [hd, ho, poke, hl]
    simp [List.drop_append]
  rw [setPos, if_pos h1, h2]

theorem get_at {s : RSess} {pre mid post : List UInt8} {n : Nat} (hd : s.data = pre ++ mid ++ post)
    (ho : s.base + s.offset = pre.length) (hl : n = mid.length) :
    s.get n = .ok (mid, { s with offset := s.offset + n }) := by
  have h1 : s.base + s.offset + n ≤ s.data.length := by rw [hd, ho]; simp; omega
  have h2 : (s.data.drop (s.base + s.offset)).take n = mid := by
    rw [hd, ho, hl]; simp [List.drop_append]
  rw [get, if_pos h1, h2]

end RSess

mutual
/-- The bytes of a value. -/
def enc (env : REnv) : RVal → RTy → UInt8 → List UInt8
  | .fixed b, .fixed _, id => id :: b
  | .str b, .str, id => id :: (le b.length 8 ++ b)
  | .vec l, .vec t, id => id :: (le (encAll env l t id).length 8 ++ encAll env l t id)
  | .obj l, .cls c, _ => encFields env l (env c)
  | _, _, _ => []

def encAll (env : REnv) : List RVal → RTy → UInt8 → List UInt8
  | [], _, _ => []
  | v :: l, t, id => enc env v t id ++ encAll env l t id

def encFields (env : REnv) : List RVal → List (UInt8 × RTy) → List UInt8
  | v :: l, f :: fs => enc env v f.2 f.1 ++ encFields env l fs
  | _, _ => []
end

mutual
theorem enc_length (env : REnv) : ∀ (v : RVal) (t : RTy) (id : UInt8), OfTy env v t →
    (enc env v t id).length = reflSize env v t
  | .fixed b, t, id, h => by
    cases t with
    | fixed n => simp only [OfTy] at h; simp [enc, reflSize, h]; omega
    | _ => simp [OfTy] at h
  | .str b, t, id, h => by
    cases t with
    | str => simp [enc, reflSize, le_length]; omega
    | _ => simp [OfTy] at h
  | .vec l, t, id, h => by
    cases t with
    | vec t =>
      simp only [OfTy] at h
      simp [enc, reflSize, le_length, encAll_length env l t id h]; omega
    | _ => simp [OfTy] at h
  | .obj l, t, id, h => by
    cases t with
    | cls c =>
      simp only [OfTy] at h
      simp [enc, reflSize, encFields_length env l (env c) h]
    | _ => simp [OfTy] at h

theorem encAll_length (env : REnv) : ∀ (l : List RVal) (t : RTy) (id : UInt8), OfTyAll env l t →
    (encAll env l t id).length = reflSizeAll env l t
  | [], _, _, _ => by simp [encAll, reflSizeAll]
  | v :: l, t, id, h => by
    simp only [OfTyAll] at h
    simp [encAll, reflSizeAll, enc_length env v t id h.1, encAll_length env l t id h.2]

theorem encFields_length (env : REnv) : ∀ (l : List RVal) (fs : List (UInt8 × RTy)), OfTyFields env l fs →
    (encFields env l fs).length = reflSizeFields env l fs
  | [], _, _ => by simp [encFields, reflSizeFields]
  | v :: l, [], h => by simp [OfTyFields] at h
  | v :: l, f :: fs, h => by
    simp only [OfTyFields] at h
    simp [encFields, reflSizeFields, enc_length env v f.2 f.1 h.1, encFields_length env l fs h.2]
end

/-! ## Writing -/

mutual
theorem write_at (env : REnv) : ∀ (v : RVal) (t : RTy) (id : UInt8) (s : RSess) (pre mid post : List UInt8),
    OfTy env v t → s.data = pre ++ mid ++ post → s.base + s.offset = pre.length → mid.length = reflSize env v t →
    reflWrite env s v t id
      = some { s with data := pre ++ enc env v t id ++ post, offset := s.offset + reflSize env v t }
  | .fixed b, t, id, s, pre, mid, post, h, hd, ho, hl => by
    cases t with
    | fixed n =>
      simp only [OfTy] at h
      simp only [reflSize] at hl
      obtain ⟨m0, mid, rfl⟩ : ∃ a l, mid = a :: l := by
        cases mid with
        | nil => simp at hl; omega
        | cons a l => exact ⟨a, l, rfl⟩
      simp at hl
      rw [reflWrite, if_pos h, RSess.put_at (b := [id]) (pre := pre) (mid := [m0]) (post := mid ++ post) (by simp [hd]) ho (by simp),
        Option.bind_some, RSess.put_at (pre := pre ++ [id]) (mid := mid) (post := post) (by simp) (by simp; omega)
          (by omega)]
      simp [enc, reflSize, h]; omega
    | _ => simp [OfTy] at h
  | .str b, t, id, s, pre, mid, post, h, hd, ho, hl => by
    cases t with
    | str =>
      simp only [reflSize] at hl
      obtain ⟨m0, m1, m2, rfl, hm1, hm2⟩ : ∃ a l l', mid = a :: (l ++ l') ∧ l.length = 8 ∧ l'.length = b.length := by
        cases mid with
        | nil => simp at hl; omega
        | cons a l => exact ⟨a, l.take 8, l.drop 8, by simp, by simp at hl ⊢; omega, by simp at hl ⊢; omega⟩
      rw [reflWrite, RSess.put_at (b := [id]) (pre := pre) (mid := [m0]) (post := m1 ++ m2 ++ post) (by simp [hd]) ho (by simp),
        Option.bind_some, RSess.put_at (pre := pre ++ [id]) (mid := m1) (post := m2 ++ post) (by simp)
          (by simp; omega) (by simp [le_length, hm1]), Option.bind_some,
        RSess.put_at (pre := pre ++ [id] ++ le b.length 8) (mid := m2) (post := post) (by simp)
          (by simp [le_length]; omega) (by omega)]
      simp [enc, reflSize, le_length]; omega
    | _ => simp [OfTy] at h
  | .vec l, t, id, s, pre, mid, post, h, hd, ho, hl => by
    cases t with
    | vec t =>
      simp only [OfTy] at h
      simp only [reflSize] at hl
      obtain ⟨m0, m1, m2, rfl, hm1, hm2⟩ :
          ∃ a k k', mid = a :: (k ++ k') ∧ k.length = 8 ∧ k'.length = reflSizeAll env l t := by
        cases mid with
        | nil => simp at hl; omega
        | cons a l => exact ⟨a, l.take 8, l.drop 8, by simp, by simp at hl ⊢; omega, by simp at hl ⊢; omega⟩
      rw [reflWrite, RSess.put_at (b := [id]) (pre := pre) (mid := [m0]) (post := m1 ++ m2 ++ post) (by simp [hd]) ho (by simp),
        Option.bind_some, RSess.put_at (pre := pre ++ [id]) (mid := m1) (post := m2 ++ post) (by simp)
          (by simp; omega) (by simp [le_length, hm1]), Option.bind_some,
        writeAll_at env l t id _ (pre ++ [id] ++ le 0 8) m2 post h (by simp)
          (by simp [le_length]; omega) hm2, Option.bind_some,
        RSess.setPos_at (pre := pre ++ [id]) (mid := le 0 8) (post := encAll env l t id ++ post) (by simp)
          (by simp; omega) (by simp [le_length])]
      simp [enc, reflSize, le_length, encAll_length env l t id h]
      constructor
      · congr 1
        omega
      · omega
    | _ => simp [OfTy] at h
  | .obj l, t, id, s, pre, mid, post, h, hd, ho, hl => by
    cases t with
    | cls c =>
      simp only [OfTy] at h
      simp only [reflSize] at hl
      rw [reflWrite, writeFields_at env l (env c) s pre mid post h hd ho hl]
      simp [enc, reflSize]
    | _ => simp [OfTy] at h

theorem writeAll_at (env : REnv) : ∀ (l : List RVal) (t : RTy) (id : UInt8) (s : RSess) (pre mid post : List UInt8),
    OfTyAll env l t → s.data = pre ++ mid ++ post → s.base + s.offset = pre.length →
    mid.length = reflSizeAll env l t →
    reflWriteAll env s l t id
      = some { s with data := pre ++ encAll env l t id ++ post, offset := s.offset + reflSizeAll env l t }
  | [], t, id, s, pre, mid, post, h, hd, ho, hl => by
    simp only [reflSizeAll, List.length_eq_zero_iff] at hl
    subst hl
    cases s
    simp at hd
    simp [reflWriteAll, encAll, reflSizeAll, hd]
  | v :: l, t, id, s, pre, mid, post, h, hd, ho, hl => by
    simp only [OfTyAll] at h
    simp only [reflSizeAll] at hl
    obtain ⟨m1, m2, rfl, hm1, hm2⟩ :
        ∃ k k', mid = k ++ k' ∧ k.length = reflSize env v t ∧ k'.length = reflSizeAll env l t :=
      ⟨mid.take (reflSize env v t), mid.drop (reflSize env v t), by simp, by simp; omega, by simp; omega⟩
    have e1 := enc_length env v t id h.1
    rw [reflWriteAll, write_at env v t id s pre m1 (m2 ++ post) h.1 (by simp [hd]) ho hm1, Option.bind_some,
      writeAll_at env l t id _ (pre ++ enc env v t id) m2 post h.2 (by simp) (by simp [e1]; omega) hm2]
    simp [encAll, reflSizeAll]; omega

theorem writeFields_at (env : REnv) : ∀ (l : List RVal) (fs : List (UInt8 × RTy)) (s : RSess)
    (pre mid post : List UInt8), OfTyFields env l fs → s.data = pre ++ mid ++ post →
    s.base + s.offset = pre.length → mid.length = reflSizeFields env l fs →
    reflWriteFields env s l fs
      = some { s with data := pre ++ encFields env l fs ++ post, offset := s.offset + reflSizeFields env l fs }
  | [], [], s, pre, mid, post, h, hd, ho, hl => by
    simp only [reflSizeFields, List.length_eq_zero_iff] at hl
    subst hl
    cases s
    simp at hd
    simp [reflWriteFields, encFields, reflSizeFields, hd]
  | [], f :: fs, s, pre, mid, post, h, hd, ho, hl => by simp [OfTyFields] at h
  | v :: l, [], s, pre, mid, post, h, hd, ho, hl => by simp [OfTyFields] at h
  | v :: l, f :: fs, s, pre, mid, post, h, hd, ho, hl => by
    simp only [OfTyFields] at h
    simp only [reflSizeFields] at hl
    obtain ⟨m1, m2, rfl, hm1, hm2⟩ :
        ∃ k k', mid = k ++ k' ∧ k.length = reflSize env v f.2 ∧ k'.length = reflSizeFields env l fs :=
      ⟨mid.take (reflSize env v f.2), mid.drop (reflSize env v f.2), by simp, by simp; omega, by simp; omega⟩
    have e1 := enc_length env v f.2 f.1 h.1
    rw [reflWriteFields, write_at env v f.2 f.1 s pre m1 (m2 ++ post) h.1 (by simp [hd]) ho hm1, Option.bind_some,
      writeFields_at env l fs _ (pre ++ enc env v f.2 f.1) m2 post h.2 (by simp) (by simp [e1]; omega) hm2]
    simp [encFields, reflSizeFields]; omega
end

/-! ## Reading -/

theorem ok_bind {ε α β : Type} (a : α) (f : α → Except ε β) : (Except.ok a).bind f = f a := rfl

theorem err_bind {ε α β : Type} (e : ε) (f : α → Except ε β) : (Except.error e : Except ε α).bind f = .error e := rfl

mutual
theorem size_pos (env : REnv) (hne : ∀ c, env c ≠ []) : ∀ (v : RVal) (t : RTy), OfTy env v t → 0 < reflSize env v t
  | .fixed b, t, h => by cases t <;> simp [OfTy] at h <;> simp [reflSize]; omega
  | .str b, t, h => by cases t <;> simp [OfTy] at h <;> simp [reflSize]; omega
  | .vec l, t, h => by cases t <;> simp [OfTy] at h <;> simp [reflSize]; omega
  | .obj l, t, h => by
    cases t with
    | cls c =>
      simp only [OfTy] at h
      rw [reflSize]
      exact sizeFields_pos env hne l (env c) (hne c) h
    | _ => simp [OfTy] at h

theorem sizeFields_pos (env : REnv) (hne : ∀ c, env c ≠ []) : ∀ (l : List RVal) (fs : List (UInt8 × RTy)), fs ≠ [] →
    OfTyFields env l fs → 0 < reflSizeFields env l fs
  | [], [], hf, _ => absurd rfl hf
  | [], f :: fs, _, h => by simp [OfTyFields] at h
  | v :: l, [], hf, h => absurd rfl hf
  | v :: l, f :: fs, _, h => by
    simp only [OfTyFields] at h
    rw [reflSizeFields]
    have := size_pos env hne v f.2 h.1
    omega
end

mutual
theorem read_at (env : REnv) (hne : ∀ c, env c ≠ []) : ∀ (v : RVal) (t : RTy) (id : UInt8) (f : Nat) (s : RSess)
    (pre post : List UInt8), OfTy env v t → reflSize env v t < 256 ^ 8 → readSteps v ≤ f →
    s.data = pre ++ enc env v t id ++ post → s.base + s.offset = pre.length →
    reflRead env f s t = .ok (v, { s with offset := s.offset + reflSize env v t })
  | .fixed b, t, id, f, s, pre, post, h, hz, hf, hd, ho => by
    cases t with
    | fixed n =>
      simp only [OfTy] at h
      obtain ⟨f, rfl⟩ : ∃ k, f = k + 1 := ⟨f - 1, by simp [readSteps] at hf; omega⟩
      simp only [enc] at hd
      rw [reflRead, RSess.get_at (n := 1) (pre := pre) (mid := [id]) (post := b ++ post) (by simp [hd]) ho rfl,
        ok_bind, RSess.get_at (pre := pre ++ [id]) (mid := b) (post := post) (by simp [hd])
          (by simp; omega) h.symm, ok_bind]
      simp [reflSize]; omega
    | _ => simp [OfTy] at h
  | .str b, t, id, f, s, pre, post, h, hz, hf, hd, ho => by
    cases t with
    | str =>
      obtain ⟨f, rfl⟩ : ∃ k, f = k + 1 := ⟨f - 1, by simp [readSteps] at hf; omega⟩
      simp only [enc] at hd
      simp only [reflSize] at hz
      have hu : unle (le b.length 8) = b.length := unle_le _ _ (by omega)
      rw [reflRead, RSess.get_at (n := 1) (pre := pre) (mid := [id]) (post := le b.length 8 ++ b ++ post) (by simp [hd]) ho rfl,
        ok_bind, RSess.get_at (pre := pre ++ [id]) (mid := le b.length 8) (post := b ++ post) (by simp [hd])
          (by simp; omega) (by simp [le_length]), ok_bind, hu,
        RSess.get_at (pre := pre ++ [id] ++ le b.length 8) (mid := b) (post := post) (by simp [hd])
          (by simp [le_length]; omega) rfl, ok_bind]
      simp [reflSize]; omega
    | _ => simp [OfTy] at h
  | .vec l, t, id, f, s, pre, post, h, hz, hf, hd, ho => by
    cases t with
    | vec t =>
      simp only [OfTy] at h
      simp only [readSteps] at hf
      obtain ⟨f, rfl⟩ : ∃ k, f = k + 1 := ⟨f - 1, by omega⟩
      simp only [enc, encAll_length env l t id h] at hd
      simp only [reflSize] at hz
      have hu : unle (le (reflSizeAll env l t) 8) = reflSizeAll env l t := unle_le _ _ (by omega)
      rw [reflRead, RSess.get_at (n := 1) (pre := pre) (mid := [id])
          (post := le (reflSizeAll env l t) 8 ++ encAll env l t id ++ post) (by simp [hd]) ho rfl,
        ok_bind, RSess.get_at (pre := pre ++ [id]) (mid := le (reflSizeAll env l t) 8)
          (post := encAll env l t id ++ post) (by simp [hd])
          (by simp; omega) (by simp [le_length]), ok_bind, hu,
        readAll_at env hne l t id f _ (pre ++ [id] ++ le (reflSizeAll env l t) 8) post h (by omega) (by omega)
          (by simp [hd]) (by simp [le_length]; omega) (by simp), ok_bind]
      simp [reflSize]; omega
    | _ => simp [OfTy] at h
  | .obj l, t, id, f, s, pre, post, h, hz, hf, hd, ho => by
    cases t with
    | cls c =>
      simp only [OfTy] at h
      simp only [readSteps] at hf
      obtain ⟨f, rfl⟩ : ∃ k, f = k + 1 := ⟨f - 1, by omega⟩
      simp only [enc] at hd
      simp only [reflSize] at hz
      rw [reflRead, readFields_at env hne l (env c) f s pre post h hz (by omega) hd ho, ok_bind]
      simp [reflSize]
    | _ => simp [OfTy] at h

theorem readAll_at (env : REnv) (hne : ∀ c, env c ≠ []) : ∀ (l : List RVal) (t : RTy) (id : UInt8) (f : Nat)
    (s : RSess) (pre post : List UInt8), OfTyAll env l t → reflSizeAll env l t < 256 ^ 8 → readStepsAll l ≤ f →
    s.data = pre ++ encAll env l t id ++ post → s.base + s.offset = pre.length →
    s.len = s.offset + reflSizeAll env l t → reflReadAll env f s t = .ok l
  | [], t, id, f, s, pre, post, h, hz, hf, hd, ho, hl => by
    obtain ⟨f, rfl⟩ : ∃ k, f = k + 1 := ⟨f - 1, by simp [readStepsAll] at hf; omega⟩
    simp only [reflSizeAll] at hl
    simp [reflReadAll, RSess.isEmpty, hl]
  | v :: l, t, id, f, s, pre, post, h, hz, hf, hd, ho, hl => by
    simp only [readStepsAll] at hf
    obtain ⟨f, rfl⟩ : ∃ k, f = k + 1 := ⟨f - 1, by omega⟩
    simp only [OfTyAll] at h
    simp only [reflSizeAll] at hl hz
    simp only [encAll] at hd
    have h1 := size_pos env hne v t h.1
    have e1 := enc_length env v t id h.1
    have hem : s.isEmpty = false := by simp [RSess.isEmpty]; omega
    rw [reflReadAll, hem, if_neg (by simp),
      read_at env hne v t id f s pre (encAll env l t id ++ post) h.1 (by omega) (by omega) (by simp [hd]) ho,
      ok_bind,
      readAll_at env hne l t id f _ (pre ++ enc env v t id) post h.2 (by omega) (by omega) (by simp [hd])
        (by simp [e1]; omega) (by simp; omega), ok_bind]

theorem readFields_at (env : REnv) (hne : ∀ c, env c ≠ []) : ∀ (l : List RVal) (fs : List (UInt8 × RTy)) (f : Nat)
    (s : RSess) (pre post : List UInt8), OfTyFields env l fs → reflSizeFields env l fs < 256 ^ 8 →
    readStepsAll l ≤ f → s.data = pre ++ encFields env l fs ++ post → s.base + s.offset = pre.length →
    reflReadFields env f s fs = .ok (l, { s with offset := s.offset + reflSizeFields env l fs })
  | [], [], f, s, pre, post, h, hz, hf, hd, ho => by
    obtain ⟨f, rfl⟩ : ∃ k, f = k + 1 := ⟨f - 1, by simp [readStepsAll] at hf; omega⟩
    simp [reflReadFields, reflSizeFields]
  | [], g :: fs, f, s, pre, post, h, hz, hf, hd, ho => by simp [OfTyFields] at h
  | v :: l, [], f, s, pre, post, h, hz, hf, hd, ho => by simp [OfTyFields] at h
  | v :: l, g :: fs, f, s, pre, post, h, hz, hf, hd, ho => by
    simp only [readStepsAll] at hf
    obtain ⟨f, rfl⟩ : ∃ k, f = k + 1 := ⟨f - 1, by omega⟩
    simp only [OfTyFields] at h
    simp only [reflSizeFields] at hz
    simp only [encFields] at hd
    have e1 := enc_length env v g.2 g.1 h.1
    rw [reflReadFields,
      read_at env hne v g.2 g.1 f s pre (encFields env l fs ++ post) h.1 (by omega) (by omega) (by simp [hd]) ho,
      ok_bind,
      readFields_at env hne l fs f _ (pre ++ enc env v g.2 g.1) post h.2 (by omega) (by omega) (by simp [hd])
        (by simp [e1]; omega), ok_bind]
    simp [reflSizeFields]; omega
end

/-! ## Cut files -/

theorem RSess.get_oob {s : RSess} {n : Nat} (h : s.data.length < s.base + s.offset + n) : s.get n = .error .oob := by
  rw [RSess.get, if_neg (by omega)]

mutual
theorem read_cut (env : REnv) (hne : ∀ c, env c ≠ []) : ∀ (v : RVal) (t : RTy) (id : UInt8) (f : Nat) (s : RSess)
    (pre : List UInt8) (k : Nat), OfTy env v t → reflSize env v t < 256 ^ 8 → readSteps v ≤ f →
    k < reflSize env v t → s.data = pre ++ (enc env v t id).take k → s.base + s.offset = pre.length →
    reflRead env f s t = .error .oob
  | .fixed b, t, id, f, s, pre, k, h, hz, hf, hk, hd, ho => by
    cases t with
    | fixed n =>
      simp only [OfTy] at h
      obtain ⟨f, rfl⟩ : ∃ k, f = k + 1 := ⟨f - 1, by simp [readSteps] at hf; omega⟩
      simp only [enc] at hd
      simp only [reflSize] at hk
      cases k with
      | zero => rw [reflRead, RSess.get_oob (by rw [hd]; simp; omega), err_bind]
      | succ k =>
        rw [reflRead, RSess.get_at (n := 1) (pre := pre) (mid := [id]) (post := b.take k) (by simp [hd]) ho rfl,
          ok_bind, RSess.get_oob (by simp only [hd]; simp; omega), err_bind]
    | _ => simp [OfTy] at h
  | .str b, t, id, f, s, pre, k, h, hz, hf, hk, hd, ho => by
    cases t with
    | str =>
      obtain ⟨f, rfl⟩ : ∃ k, f = k + 1 := ⟨f - 1, by simp [readSteps] at hf; omega⟩
      simp only [enc] at hd
      simp only [reflSize] at hz hk
      have hu : unle (le b.length 8) = b.length := unle_le _ _ (by omega)
      cases k with
      | zero => rw [reflRead, RSess.get_oob (by rw [hd]; simp; omega), err_bind]
      | succ k =>
        rw [reflRead, RSess.get_at (n := 1) (pre := pre) (mid := [id]) (post := (le b.length 8 ++ b).take k)
          (by simp [hd]) ho rfl, ok_bind]
        by_cases h8 : k < 8
        · rw [RSess.get_oob (by simp only [hd]; simp [le_length]; omega), err_bind]
        · obtain ⟨j, rfl⟩ : ∃ j, k = 8 + j := ⟨k - 8, by omega⟩
          have ht : (le b.length 8 ++ b).take (8 + j) = le b.length 8 ++ b.take j := by
            rw [List.take_append, le_length, List.take_of_length_le (by simp [le_length])]; simp
          rw [RSess.get_at (pre := pre ++ [id]) (mid := le b.length 8) (post := b.take j) (by simp [hd, ht])
            (by simp; omega) (by simp [le_length]), ok_bind, hu,
            RSess.get_oob (by simp only [hd]; simp [le_length]; omega), err_bind]
    | _ => simp [OfTy] at h
  | .vec l, t, id, f, s, pre, k, h, hz, hf, hk, hd, ho => by
    cases t with
    | vec t =>
      simp only [OfTy] at h
      simp only [readSteps] at hf
      obtain ⟨f, rfl⟩ : ∃ k, f = k + 1 := ⟨f - 1, by omega⟩
      have e1 := encAll_length env l t id h
      simp only [enc, e1] at hd
      simp only [reflSize] at hz hk
      have hu : unle (le (reflSizeAll env l t) 8) = reflSizeAll env l t := unle_le _ _ (by omega)
      cases k with
      | zero => rw [reflRead, RSess.get_oob (by rw [hd]; simp; omega), err_bind]
      | succ k =>
        rw [reflRead, RSess.get_at (n := 1) (pre := pre) (mid := [id])
          (post := (le (reflSizeAll env l t) 8 ++ encAll env l t id).take k) (by simp [hd]) ho rfl, ok_bind]
        by_cases h8 : k < 8
        · rw [RSess.get_oob (by simp only [hd]; simp [le_length]; omega), err_bind]
        · obtain ⟨j, rfl⟩ : ∃ j, k = 8 + j := ⟨k - 8, by omega⟩
          have ht : (le (reflSizeAll env l t) 8 ++ encAll env l t id).take (8 + j)
              = le (reflSizeAll env l t) 8 ++ (encAll env l t id).take j := by
            rw [List.take_append, le_length, List.take_of_length_le (by simp [le_length])]; simp
          rw [RSess.get_at (pre := pre ++ [id]) (mid := le (reflSizeAll env l t) 8)
            (post := (encAll env l t id).take j) (by simp [hd, ht]) (by simp; omega) (by simp [le_length]), ok_bind, hu,
            readAll_cut env hne l t id f _ (pre ++ [id] ++ le (reflSizeAll env l t) 8) j h (by omega) (by omega)
              (by omega) (by simp [hd, ht]) (by simp [le_length]; omega) (by simp), err_bind]
    | _ => simp [OfTy] at h
  | .obj l, t, id, f, s, pre, k, h, hz, hf, hk, hd, ho => by
    cases t with
    | cls c =>
      simp only [OfTy] at h
      simp only [readSteps] at hf
      obtain ⟨f, rfl⟩ : ∃ k, f = k + 1 := ⟨f - 1, by omega⟩
      simp only [enc] at hd
      simp only [reflSize] at hz hk
      rw [reflRead, readFields_cut env hne l (env c) f s pre k h hz (by omega) hk hd ho, err_bind]
    | _ => simp [OfTy] at h

theorem readAll_cut (env : REnv) (hne : ∀ c, env c ≠ []) : ∀ (l : List RVal) (t : RTy) (id : UInt8) (f : Nat)
    (s : RSess) (pre : List UInt8) (k : Nat), OfTyAll env l t → reflSizeAll env l t < 256 ^ 8 → readStepsAll l ≤ f →
    k < reflSizeAll env l t → s.data = pre ++ (encAll env l t id).take k → s.base + s.offset = pre.length →
    s.len = s.offset + reflSizeAll env l t → reflReadAll env f s t = .error .oob
  | [], t, id, f, s, pre, k, h, hz, hf, hk, hd, ho, hl => by simp [reflSizeAll] at hk
  | v :: l, t, id, f, s, pre, k, h, hz, hf, hk, hd, ho, hl => by
    simp only [readStepsAll] at hf
    obtain ⟨f, rfl⟩ : ∃ k, f = k + 1 := ⟨f - 1, by omega⟩
    simp only [OfTyAll] at h
    simp only [reflSizeAll] at hl hz hk
    simp only [encAll] at hd
    have h1 := size_pos env hne v t h.1
    have e1 := enc_length env v t id h.1
    have hem : s.isEmpty = false := by simp [RSess.isEmpty]; omega
    rw [reflReadAll, hem, if_neg (by simp)]
    by_cases hkv : k < reflSize env v t
    · rw [List.take_append_of_le_length (by omega)] at hd
      rw [read_cut env hne v t id f s pre k h.1 (by omega) (by omega) hkv hd ho, err_bind]
    · obtain ⟨j, rfl⟩ : ∃ j, k = reflSize env v t + j := ⟨k - reflSize env v t, by omega⟩
      rw [List.take_append, e1, List.take_of_length_le (by omega), Nat.add_sub_cancel_left] at hd
      rw [read_at env hne v t id f s pre ((encAll env l t id).take j) h.1 (by omega) (by omega) (by simp [hd]) ho,
        ok_bind, readAll_cut env hne l t id f _ (pre ++ enc env v t id) j h.2 (by omega) (by omega) (by omega)
          (by simp [hd]) (by simp [e1]; omega) (by simp; omega), err_bind]

theorem readFields_cut (env : REnv) (hne : ∀ c, env c ≠ []) : ∀ (l : List RVal) (fs : List (UInt8 × RTy)) (f : Nat)
    (s : RSess) (pre : List UInt8) (k : Nat), OfTyFields env l fs → reflSizeFields env l fs < 256 ^ 8 →
    readStepsAll l ≤ f → k < reflSizeFields env l fs → s.data = pre ++ (encFields env l fs).take k →
    s.base + s.offset = pre.length → reflReadFields env f s fs = .error .oob
  | [], fs, f, s, pre, k, h, hz, hf, hk, hd, ho => by simp [reflSizeFields] at hk
  | v :: l, [], f, s, pre, k, h, hz, hf, hk, hd, ho => by simp [OfTyFields] at h
  | v :: l, g :: fs, f, s, pre, k, h, hz, hf, hk, hd, ho => by
    simp only [readStepsAll] at hf
    obtain ⟨f, rfl⟩ : ∃ k, f = k + 1 := ⟨f - 1, by omega⟩
    simp only [OfTyFields] at h
    simp only [reflSizeFields] at hz hk
    simp only [encFields] at hd
    have e1 := enc_length env v g.2 g.1 h.1
    rw [reflReadFields]
    by_cases hkv : k < reflSize env v g.2
    · rw [List.take_append_of_le_length (by omega)] at hd
      rw [read_cut env hne v g.2 g.1 f s pre k h.1 (by omega) (by omega) hkv hd ho, err_bind]
    · obtain ⟨j, rfl⟩ : ∃ j, k = reflSize env v g.2 + j := ⟨k - reflSize env v g.2, by omega⟩
      rw [List.take_append, e1, List.take_of_length_le (by omega), Nat.add_sub_cancel_left] at hd
      rw [read_at env hne v g.2 g.1 f s pre ((encFields env l fs).take j) h.1 (by omega) (by omega) (by simp [hd]) ho,
        ok_bind, readFields_cut env hne l fs f _ (pre ++ enc env v g.2 g.1) j h.2 (by omega) (by omega) (by omega)
          (by simp [hd]) (by simp [e1]; omega), err_bind]
end

end CGraph
