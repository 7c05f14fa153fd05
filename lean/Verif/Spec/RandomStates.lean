import Verif.Model.RandomBatch

/-! What states belong to a space, which spaces `random_state` supports, and what is assumed of the generators. -/

namespace Verif.RandomBatch

mutual
/-- `x` is a state of the space. -/
def Member : Space → List Int → Prop
  | .spin t N sz, x => x.length = N ∧ (∀ v ∈ x, -(t : Int) ≤ v ∧ v ≤ t ∧ (2 : Int) ∣ v - t) ∧ ∀ m, sz = some m → x.sum = m
  | .fock nmax N p, x => x.length = N ∧ (∀ v ∈ x, 0 ≤ v ∧ v ≤ (nmax : Int)) ∧ ∀ k, p = some k → x.sum = (k : Int)
  | .qubit N, x => x.length = N ∧ ∀ v ∈ x, v = 0 ∨ v = 1
  | .custom ls N _, x => x.length = N ∧ ∀ l, ls = some l → ∀ v ∈ x, v ∈ l
  | .tensor l, x => MemberParts l x
  | .doubled s, x => ∃ a b, x = a ++ b ∧ Member s a ∧ Member s b
/-- `x` consists of a state of each of the spaces. -/
def MemberParts : List Space → List Int → Prop
  | [], x => x = []
  | s :: l, x => ∃ a b, x = a ++ b ∧ Member s a ∧ MemberParts l b
end

mutual
/-- the constructors accept the arguments, there are finitely many local states and no constraint given by the user. -/
def Supported : Space → Prop
  | .spin t N sz => 0 < t ∧ ∀ m, sz = some m → m.natAbs ≤ N * t ∧ (2 : Int) ∣ t * N + m
  | .fock nmax N p => ∀ k, p = some k → 0 < k ∧ k ≤ nmax * N
  | .qubit _ => True
  | .custom ls _ c => (∃ l, ls = some l ∧ l ≠ []) ∧ c = false
  | .tensor l => SupportedParts l
  | .doubled s => Supported s
/-- all of the spaces are supported. -/
def SupportedParts : List Space → Prop
  | [] => True
  | s :: l => Supported s ∧ SupportedParts l
end

/-- the generators give arrays of the requested shape with entries in the requested range, permutations, and as many keys as asked for. -/
structure Rng.Good {K : Type} (g : Rng K) : Prop where
  split : ∀ key n, (g.split key n).length = n
  randint_length : ∀ key b n m, (g.randint key b n m).length = b
  randint_row : ∀ key b n m, ∀ r ∈ g.randint key b n m, r.length = n
  randint_lt : ∀ key b n m, 0 < m → ∀ r ∈ g.randint key b n m, ∀ v ∈ r, v < m
  permutation : ∀ key x, (g.permutation key x).Perm x
  integers : ∀ key k m, 0 < m → g.integers key k m < m

/-- likewise for the legacy generators. -/
structure LegacyRng.Good (g : LegacyRng) : Prop where
  length : ∀ b n m, (g.array b n m).length = b
  row : ∀ b n m, ∀ r ∈ g.array b n m, r.length = n
  lt : ∀ b n m, 0 < m → ∀ r ∈ g.array b n m, ∀ v ∈ r, v < m
  integers : ∀ k m, 0 < m → g.integers k m < m

/-- the leading shape documented for a size: none, `(size,)`, or `size`. -/
def Size.lead : Size → List Nat
  | .none => []
  | .int n => [n]
  | .dims l => l

end Verif.RandomBatch
