import Verif.Model.HilbertEq

/-! What a Hilbert space object stands for, for C167 and C168. -/

namespace Verif.HilbertEq

mutual
/-- the function objects held by a space. -/
def fns : Space → List Fn
  | .qubit _ => []
  | .spin _ _ f => f.toList
  | .fock _ _ f => f.toList
  | .custom _ _ f => f.toList
  | .tensor l => fnsAll l
  | .doubled a => fns a
def fnsAll : List Space → List Fn
  | [] => []
  | a :: l => fns a ++ fnsAll l
end

/-- one object does not compute two different things. -/
def OneObject (a b : Space) : Prop := ∀ f ∈ fns a, ∀ g ∈ fns b, f.id = g.id → f.pred = g.pred

mutual
/-- the number of degrees of freedom. -/
def nSites : Space → Nat
  | .qubit n => n
  | .spin n _ _ => n
  | .fock n _ _ => n
  | .custom n _ _ => n
  | .tensor l => nSitesAll l
  | .doubled a => 2 * nSites a
def nSitesAll : List Space → Nat
  | [] => 0
  | a :: l => nSites a + nSitesAll l
end

/-- `n` quantum numbers out of a set, meeting the constraint. -/
def Homog (n : Nat) (P : ℚ → Prop) (fn : Option Fn) (x : List ℚ) : Prop :=
  x.length = n ∧ (∀ v ∈ x, P v) ∧ ∀ f, fn = some f → f.pred x = true

mutual
/-- the configurations of a space. -/
def Config : Space → List ℚ → Prop
  | .qubit n, x => Homog n (fun v => v = 0 ∨ v = 1) none x
  | .spin n t f, x => Homog n (fun v => ∃ i : Nat, i ≤ t ∧ v = 2 * i - t) f x
  | .fock n m f, x => Homog n (fun v => ∃ i : Nat, (∀ k, m = some k → i ≤ k) ∧ v = i) f x
  | .custom n l f, x => Homog n (fun v => ∀ k, l = some k → v ∈ k) f x
  | .tensor l, x => ConfigAll l x
  | .doubled a, x => ∃ y z, x = y ++ z ∧ Config a y ∧ Config a z
def ConfigAll : List Space → List ℚ → Prop
  | [], x => x = []
  | a :: l, x => ∃ y z, x = y ++ z ∧ Config a y ∧ ConfigAll l z
end

mutual
/-- the quantum numbers of every site in the order of their numbers (`none`: infinitely many). -/
def siteStates : Space → List (Option (List ℚ))
  | .tensor l => siteStatesAll l
  | .doubled a => siteStates a ++ siteStates a
  | .qubit n => List.replicate n (localStates (.qubit n))
  | .spin n t f => List.replicate n (localStates (.spin n t f))
  | .fock n m f => List.replicate n (localStates (.fock n m f))
  | .custom n l f => List.replicate n l
def siteStatesAll : List Space → List (Option (List ℚ))
  | [] => []
  | a :: l => siteStates a ++ siteStatesAll l
end

mutual
/-- no factor is a CustomHilbert. -/
def noCustom : Space → Bool
  | .custom _ _ _ => false
  | .tensor l => noCustomAll l
  | .doubled a => noCustom a
  | _ => true
def noCustomAll : List Space → Bool
  | [] => true
  | a :: l => noCustom a && noCustomAll l
end

end Verif.HilbertEq
