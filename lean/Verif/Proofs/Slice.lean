import Verif.Model.Util

/-
Slicing a text by character positions (`Loc::substr`).
-/
namespace Luafmt

theorem byteLen_append (a b : Str) : byteLen (a ++ b) = byteLen a + byteLen b := by
  induction a with
  | nil => simp [byteLen]
  | cons c a ih => simp [byteLen, ih, Nat.add_assoc]

theorem dropBytes_byteLen (a b : Str) : dropBytes (byteLen a) (a ++ b) = some b := by
  induction a with
  | nil => simp [byteLen, dropBytes]
  | cons c a ih =>
    have hc : 0 < c.utf8Size := Char.utf8Size_pos c
    obtain ⟨k, hk⟩ : ∃ k, c.utf8Size + byteLen a = k + 1 := ⟨c.utf8Size + byteLen a - 1, by omega⟩
    simp only [byteLen, List.cons_append, hk, dropBytes]
    rw [if_pos (by omega), show k + 1 - c.utf8Size = byteLen a by omega, ih]

theorem takeBytes_byteLen (a b : Str) : takeBytes (byteLen a) (a ++ b) = some a := by
  induction a with
  | nil => simp [byteLen, takeBytes]
  | cons c a ih =>
    have hc : 0 < c.utf8Size := Char.utf8Size_pos c
    obtain ⟨k, hk⟩ : ∃ k, c.utf8Size + byteLen a = k + 1 := ⟨c.utf8Size + byteLen a - 1, by omega⟩
    simp only [byteLen, List.cons_append, hk, takeBytes]
    rw [if_pos (by omega), show k + 1 - c.utf8Size = byteLen a by omega, ih]
    rfl

theorem sliceBytes_mid (a b z : Str) :
    sliceBytes (byteLen a) (byteLen a + byteLen b) (a ++ (b ++ z)) = some b := by
  unfold sliceBytes
  rw [if_pos (by omega), dropBytes_byteLen]
  simp only [Option.bind_some, Nat.add_sub_cancel_left]
  exact takeBytes_byteLen b z

theorem charToByte_at {a b : Str} (h : a ++ b ≠ []) : charToByte (a ++ b) a.length = some (byteLen a) := by
  unfold charToByte
  generalize he : a ++ b = s at h
  cases s with
  | nil => exact absurd rfl h
  | cons c s =>
    simp only
    rw [if_pos (by rw [← he]; simp), ← he]
    simp

/-- The text between two positions. -/
theorem substr_mid (src : Str) {a x y w z : Str} (hs : src = a ++ (x ++ (y ++ w))) :
    substr src ⟨x.length, x.length + y.length⟩ (x ++ (y ++ z)) a.length = .ok y := by
  unfold substr
  by_cases hne : src = []
  · have h0 := hne
    rw [hs] at h0
    simp at h0
    obtain ⟨rfl, rfl, rfl, rfl⟩ := h0
    subst hs
    simp [charToByte]
  · have e1 : charToByte src (x.length + a.length) = some (byteLen (a ++ x)) := by
      have : src = (a ++ x) ++ (y ++ w) := by rw [hs]; simp
      have h := charToByte_at (a := a ++ x) (b := y ++ w) (by rw [← this]; exact hne)
      rw [← this] at h
      rw [← h]; congr 1; simp; omega
    have e2 : charToByte src (x.length + y.length + a.length) = some (byteLen (a ++ x ++ y)) := by
      have : src = (a ++ x ++ y) ++ w := by rw [hs]; simp
      have h := charToByte_at (a := a ++ x ++ y) (b := w) (by rw [← this]; exact hne)
      rw [← this] at h
      rw [← h]; congr 1; simp; omega
    have e3 : charToByte src a.length = some (byteLen a) := by
      have h := charToByte_at (a := a) (b := x ++ (y ++ w)) (by rw [← hs]; exact hne)
      rw [← hs] at h
      exact h
    simp only [e1, e2, e3, byteLen_append]
    rw [if_pos (by omega)]
    have : sliceBytes (byteLen a + byteLen x - byteLen a) (byteLen a + byteLen x + byteLen y - byteLen a)
        (x ++ (y ++ z)) = some y := by
      rw [show byteLen a + byteLen x - byteLen a = byteLen x by omega,
        show byteLen a + byteLen x + byteLen y - byteLen a = byteLen x + byteLen y by omega]
      exact sliceBytes_mid x y z
    rw [this]

theorem byteLen_ascii {s : Str} (h : ∀ ch ∈ s, ch.utf8Size = 1) : byteLen s = s.length := by
  induction s with
  | nil => rfl
  | cons ch s ih =>
    simp only [byteLen, List.length_cons, h ch (by simp), ih fun c hc => h c (by simp [hc])]
    omega

/-- If characters are bytes, the offset of a gap does not matter. -/
theorem substr_ascii {src a g z x y w : Str} (h : ∀ ch ∈ src, ch.utf8Size = 1) (hs : src = a ++ (g ++ z))
    (hg : g = x ++ (y ++ w)) {p q : Nat} (hp : p = x.length) (hq : q = x.length + y.length) :
    substr src ⟨p, q⟩ g 0 = .ok y := by
  subst hp hq
  have hlen : src.length = a.length + (x.length + (y.length + w.length) + z.length) := by rw [hs, hg]; simp; omega
  have key : ∀ n, n ≤ src.length → src ≠ [] → charToByte src n = some n := by
    intro n hn hne
    have e : src = src.take n ++ src.drop n := (List.take_append_drop n src).symm
    have := charToByte_at (a := src.take n) (b := src.drop n) (by rw [← e]; exact hne)
    rw [← e, List.length_take, Nat.min_eq_left hn, byteLen_ascii (fun c hc => h c (List.mem_of_mem_take hc)),
      List.length_take, Nat.min_eq_left hn] at this
    exact this
  unfold substr
  by_cases hne : src = []
  · have h0 := hne
    rw [hs, hg] at h0
    simp at h0
    obtain ⟨rfl, rfl, rfl, rfl, rfl⟩ := h0
    subst hs hg
    simp [charToByte]
  · simp only [Nat.add_zero]
    rw [key _ (by omega) hne, key _ (by omega) hne, key 0 (by omega) hne]
    simp only
    rw [if_pos (by omega)]
    have hx : byteLen x = x.length := byteLen_ascii fun c hc => h c (by rw [hs, hg]; simp [hc])
    have hy : byteLen y = y.length := byteLen_ascii fun c hc => h c (by rw [hs, hg]; simp [hc])
    have := sliceBytes_mid x y w
    rw [hx, hy] at this
    rw [hg, Nat.sub_zero, Nat.sub_zero, this]

theorem substr_src {src a g b : Str} (hs : src = a ++ (g ++ b)) :
    substr src ⟨a.length, a.length + g.length⟩ src 0 = .ok g := by
  have := substr_mid src (a := []) (x := a) (y := g) (w := b) (z := b) (by simpa using hs)
  rw [← hs] at this
  exact this

end Luafmt
