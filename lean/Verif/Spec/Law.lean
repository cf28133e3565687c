import Verif.Spec.User

/-!
# Specification: layered media with constitutive laws of the user

A layered medium with further parameters per layer, and laws which say what `η` and `ζ` of a layer are at a
frequency.  Nothing in this file refers to the code.
-/

namespace Verif.Spec

/-- The parameters of one layer. -/
structure LayerPar where
  rhoH : ℝ
  aniso : ℝ
  epsH : ℝ
  epsV : ℝ
  muH : ℝ
  muV : ℝ
  extra : String → Option ℝ

/-- `η` and `ζ` of one layer at one frequency. -/
structure Four where
  etaH : ℂ
  etaV : ℂ
  zetaH : ℂ
  zetaV : ℂ

/-- A law: from the layer, the frequency and the values so far to the new horizontal and vertical value. -/
abbrev Law := LayerPar → ℝ → Four → ℂ × ℂ

/-- `η` by the law, if there is one. -/
def Four.setEta (q : Four) (L : Option Law) (p : LayerPar) (f : ℝ) : Four :=
  match L with
  | none => q
  | some L => { q with etaH := (L p f q).1, etaV := (L p f q).2 }

/-- `ζ` by the law, if there is one. -/
def Four.setZeta (q : Four) (L : Option Law) (p : LayerPar) (f : ℝ) : Four :=
  match L with
  | none => q
  | some L => { q with zetaH := (L p f q).1, zetaV := (L p f q).2 }

/-- A user model with further parameters (top to bottom; `none` means 1 in every layer) and laws for `η` and `ζ`. -/
structure LawModel where
  U : UserModel
  extra : List (String × Option (List ℝ))
  eta : Option Law
  zeta : Option Law

namespace LawModel
variable (V : LawModel)

/-- One value per layer for every parameter. -/
structure Valid (minRes : ℝ) : Prop where
  user : V.U.Valid minRes
  lens : ∀ p ∈ V.extra, ∀ l, p.2 = some l → l.length = V.U.z.length + 1

/-- The parameters of layer `i`. -/
def layerPar (i : ℕ) : LayerPar where
  rhoH := V.U.rhoH i
  aniso := UserModel.val V.U.aniso 1 i
  epsH := V.U.epsH i
  epsV := V.U.epsV i
  muH := V.U.muH i
  muV := V.U.muV i
  extra := fun k => (V.extra.lookup k).map fun o => UserModel.val o 1 i

/-- Without laws. -/
noncomputable def plain (s : ℂ) (i : ℕ) : Four where
  etaH := 1 / (V.U.rhoH i : ℂ) + s * ((V.U.epsH i * epsVac : ℝ) : ℂ)
  etaV := 1 / (V.U.rhoV i : ℂ) + s * ((V.U.epsV i * epsVac : ℝ) : ℂ)
  zetaH := s * ((V.U.muH i * muVac : ℝ) : ℂ)
  zetaV := s * ((V.U.muV i * muVac : ℝ) : ℂ)

/-- With the laws: first that for `η`, then that for `ζ`, which sees the new `η`. -/
noncomputable def four (s : ℂ) (f : ℝ) (i : ℕ) : Four :=
  ((V.plain s i).setEta V.eta (V.layerPar i) f).setZeta V.zeta (V.layerPar i) f

/-- The medium at frequency `f` with Laplace parameter `s`. -/
noncomputable def medium (s : ℂ) (f : ℝ) : Medium where
  n := V.U.z.length + 1
  D := (V.U.medium s).D
  etaH := V.U.layer fun i => (V.four s f i).etaH
  etaV := V.U.layer fun i => (V.four s f i).etaV
  zetaH := V.U.layer fun i => (V.four s f i).zetaH
  zetaV := V.U.layer fun i => (V.four s f i).zetaV

/-- The laws describe passive material. -/
def Passive (s : ℂ) (f : ℝ) : Prop := ∀ i < V.U.z.length + 1,
  Medium.LayerPassive (V.four s f i).etaH (V.four s f i).etaV (V.four s f i).zetaH (V.four s f i).zetaV

end LawModel
end Verif.Spec
