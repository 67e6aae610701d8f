import Verif.JsonQuery
import Mathlib.Data.Nat.Prime.Basic
import Mathlib.Data.Nat.Sqrt
/-
The sizes of a set of keys are primes.
-/
namespace Gkc.Jq

/-- no number from `lo` on, 2^k of them, that is below `n` divides it -/
def noDiv (n : Nat) : Nat → Nat → Bool
  | 0, lo => n % lo != 0 || decide (n ≤ lo)
  | k + 1, lo => noDiv n k lo && noDiv n k (lo + 2 ^ k)

theorem noDiv_ok {n k lo d : Nat} (h : noDiv n k lo = true) (h1 : lo ≤ d) (h2 : d < lo + 2 ^ k) (h3 : d < n) : ¬ d ∣ n := by
  induction k generalizing lo with
  | zero =>
    have : d = lo := by omega
    subst this
    simp only [noDiv, Bool.or_eq_true, bne_iff_ne, decide_eq_true_eq] at h
    rcases h with h | h
    · exact fun hd => h (Nat.mod_eq_zero_of_dvd hd)
    · omega
  | succ k ih =>
    simp only [noDiv, Bool.and_eq_true] at h
    by_cases hd : d < lo + 2 ^ k
    · exact ih h.1 h1 hd
    · exact ih h.2 (by omega) (by rw [Nat.pow_succ] at h2; omega)

theorem prime_of {n k : Nat} (h : noDiv n k 2 = true) (hn : 2 ≤ n) (hk : n < (2 + 2 ^ k) * (2 + 2 ^ k)) : n.Prime := by
  rw [Nat.prime_def_le_sqrt]
  refine ⟨hn, fun m h1 h2 => ?_⟩
  have hs : Nat.sqrt n < 2 + 2 ^ k := Nat.sqrt_lt.2 hk
  have hl : Nat.sqrt n < n := Nat.sqrt_lt_self (by omega)
  exact noDiv_ok h h1 (by omega) (by omega)

/-- the sizes that are used -/
theorem primes_prime : ∀ p ∈ primes.take pCount, p.Prime := by
  have h1 : ∀ p ∈ [389, 769, 1543, 3079, 6151], noDiv p 7 2 = true := by decide +kernel
  have h2 : ∀ p ∈ [12289, 24593, 49157, 98317, 196613], noDiv p 9 2 = true := by decide +kernel
  have h3 : ∀ p ∈ [393241, 786433, 1572869, 3145739, 6291469], noDiv p 12 2 = true := by decide +kernel
  have h4 : ∀ p ∈ [12582917, 25165843, 50331653, 100663319, 201326611], noDiv p 14 2 = true := by decide +kernel
  intro p hp
  have hl : primes.take pCount = [389, 769, 1543, 3079, 6151] ++ ([12289, 24593, 49157, 98317, 196613] ++
      ([393241, 786433, 1572869, 3145739, 6291469] ++ [12582917, 25165843, 50331653, 100663319, 201326611])) := rfl
  rw [hl, List.mem_append, List.mem_append, List.mem_append] at hp
  have b1 : ∀ p ∈ [389, 769, 1543, 3079, 6151], 2 ≤ p ∧ p < (2 + 2 ^ 7) * (2 + 2 ^ 7) := by decide
  have b2 : ∀ p ∈ [12289, 24593, 49157, 98317, 196613], 2 ≤ p ∧ p < (2 + 2 ^ 9) * (2 + 2 ^ 9) := by decide
  have b3 : ∀ p ∈ [393241, 786433, 1572869, 3145739, 6291469], 2 ≤ p ∧ p < (2 + 2 ^ 12) * (2 + 2 ^ 12) := by decide
  have b4 : ∀ p ∈ [12582917, 25165843, 50331653, 100663319, 201326611], 2 ≤ p ∧ p < (2 + 2 ^ 14) * (2 + 2 ^ 14) := by decide
  rcases hp with hp | hp | hp | hp
  · exact prime_of (h1 p hp) (b1 p hp).1 (b1 p hp).2
  · exact prime_of (h2 p hp) (b2 p hp).1 (b2 p hp).2
  · exact prime_of (h3 p hp) (b3 p hp).1 (b3 p hp).2
  · exact prime_of (h4 p hp) (b4 p hp).1 (b4 p hp).2

end Gkc.Jq
