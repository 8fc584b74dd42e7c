import Verif.Model.EdgeIds

namespace Verif.EdgeIds

/-- No multiple of `32 * seed` with a factor below `2 ^ 32` is close to a multiple of `2 ^ 64`. The numbers are
two neighbouring convergents of the quotient. -/
theorem far (d m : Int) (h1 : -4294967296 < d) (h2 : d < 4294967296)
    (e1 : -65536 < d * 187896992210048078496 - m * 18446744073709551616)
    (e2 : d * 187896992210048078496 - m * 18446744073709551616 < 65536) : d = 0 := by
  -- reduce the factor modulo `2 ^ 64`
  have hk : (187896992210048078496 : Int) = 10 * 18446744073709551616 + 3429551472952562336 := by decide
  obtain ⟨k, hk'⟩ : ∃ k, k = m - 10 * d := ⟨_, rfl⟩
  have hm : m = k + 10 * d := by omega
  subst hm
  obtain ⟨y, hy⟩ : ∃ y, y = 280470145 * d - 1508582398 * k := ⟨_, rfl⟩
  obtain ⟨x, hx⟩ : ∃ x, x = 33122002325 * k - 6157922038 * d := ⟨_, rfl⟩
  have hd : d = 1508582398 * x + 33122002325 * y := by omega
  have hk2 : k = 280470145 * x + 6157922038 * y := by omega
  subst hd
  subst hk2
  rcases Int.lt_trichotomy x 0 with hx0 | hx0 | hx0 <;> rcases Int.lt_trichotomy y 0 with hy0 | hy0 | hy0 <;> omega

theorem seed_inv : seed * 0x2040003d780970bd#64 = 1#64 := by decide

theorem mul_seed_inj {a b : BitVec 64} (h : a * seed = b * seed) : a = b := by
  have h' := congrArg (· * 0x2040003d780970bd#64) h
  simpa only [BitVec.mul_assoc, seed_inv, BitVec.mul_one] using h'

theorem rotl_toNat (a : BitVec 64) : (a.rotateLeft 5).toNat = a.toNat * 32 % 2 ^ 64 + a.toNat / 2 ^ 59 := by
  rw [BitVec.toNat_rotateLeft]
  simp only [Nat.reduceMod, Nat.reduceSub, Nat.shiftLeft_eq, Nat.shiftRight_eq_div_pow]
  have ha := a.isLt
  have e : a.toNat * 2 ^ 5 % 2 ^ 64 = (a.toNat % 2 ^ 59) <<< 5 := by
    rw [Nat.shiftLeft_eq]; omega
  rw [e, ← Nat.shiftLeft_add_eq_or_of_lt (by omega), Nat.shiftLeft_eq]

theorem drop_low (u : Nat) (hu : u < 2 ^ 64) :
    (u * 32 % 2 ^ 64 + u / 2 ^ 59) / 2 ^ 16 = u * 32 % 2 ^ 64 / 2 ^ 16 := by
  have h1 : u * 32 % 2 ^ 64 = 32 * (u % 2 ^ 59) := by omega
  rw [h1]
  generalize u % 2 ^ 59 = s
  have h2 : u / 2 ^ 59 < 32 := by omega
  generalize u / 2 ^ 59 = r at *
  omega

/-- The upper bits do not depend on the port. -/
theorem xor_high (a : BitVec 64) (p : BitVec 16) :
    (a ^^^ p.setWidth 64).toNat / 2 ^ 16 = a.toNat / 2 ^ 16 := by
  rw [← Nat.shiftRight_eq_div_pow, ← Nat.shiftRight_eq_div_pow, BitVec.toNat_xor, Nat.shiftRight_xor_distrib]
  have hp := p.isLt
  have : (p.setWidth 64).toNat >>> 16 = 0 := by
    rw [BitVec.toNat_setWidth, Nat.shiftRight_eq_div_pow]
    omega
  rw [this, Nat.xor_zero]

theorem nodes_eq {n n' : BitVec 32} {p p' : BitVec 16}
    (h : (n.setWidth 64 * seed).rotateLeft 5 ^^^ p.setWidth 64 = (n'.setWidth 64 * seed).rotateLeft 5 ^^^ p'.setWidth 64) :
    n = n' := by
  have h1 := congrArg (fun x : BitVec 64 => x.toNat / 2 ^ 16) h
  simp only [xor_high, rotl_toNat] at h1
  have hs : seed.toNat = 5871781006564002453 := by decide
  rw [BitVec.toNat_mul, BitVec.toNat_mul, BitVec.toNat_setWidth, BitVec.toNat_setWidth, hs] at h1
  have hn := n.isLt
  have hn' := n'.isLt
  rw [Nat.mod_eq_of_lt (show n.toNat < 2 ^ 64 by omega), Nat.mod_eq_of_lt (show n'.toNat < 2 ^ 64 by omega)] at h1
  apply BitVec.eq_of_toNat_eq
  generalize n.toNat = a at *
  generalize n'.toNat = b at *
  obtain ⟨u, hu⟩ : ∃ u, u = a * 5871781006564002453 % 2 ^ 64 := ⟨_, rfl⟩
  obtain ⟨v, hv⟩ : ∃ v, v = b * 5871781006564002453 % 2 ^ 64 := ⟨_, rfl⟩
  rw [← hu, ← hv] at h1
  have h3 : u * 32 % 2 ^ 64 / 2 ^ 16 = v * 32 % 2 ^ 64 / 2 ^ 16 := by
    rwa [drop_low u (by omega), drop_low v (by omega)] at h1
  have hu' : u * 32 % 2 ^ 64 = a * 187896992210048078496 % 2 ^ 64 := by omega
  have hv' : v * 32 % 2 ^ 64 = b * 187896992210048078496 % 2 ^ 64 := by omega
  rw [hu', hv'] at h3
  clear h1 hu hv hu' hv' h
  have := far ((a : Int) - b)
    ((a * 187896992210048078496 / 2 ^ 64 : Nat) - (b * 187896992210048078496 / 2 ^ 64 : Nat) : Int)
    (by omega) (by omega) (by omega) (by omega)
  omega

theorem hash_two (n p : BitVec 64) : hash64 [n, p] = ((n * seed).rotateLeft 5 ^^^ p) * seed := by
  have h0 : (0#64).rotateLeft 5 = 0#64 := by decide
  simp only [hash64, List.foldl_cons, List.foldl_nil, hashWord, h0, BitVec.zero_xor]

theorem edgeId_inj {w w' : HWire} (h : edgeId w = edgeId w') : w = w' := by
  have h1 := mul_seed_inj (by simpa only [hash_two] using BitVec.eq_of_toNat_eq h)
  have hn := nodes_eq h1
  cases w with
  | mk n p => cases w' with
    | mk n' p' =>
      simp only at hn h1
      subst hn
      have hp := congrArg (fun x => (n.setWidth 64 * seed).rotateLeft 5 ^^^ x) h1
      simp only [← BitVec.xor_assoc, BitVec.xor_self, BitVec.zero_xor] at hp
      have hp' := congrArg BitVec.toNat hp
      rw [BitVec.toNat_setWidth, BitVec.toNat_setWidth] at hp'
      have := p.isLt
      have := p'.isLt
      congr 1
      apply BitVec.eq_of_toNat_eq
      omega

theorem edgeId_zero : edgeId ⟨0, 0⟩ = defaultId := by decide +kernel

end Verif.EdgeIds
