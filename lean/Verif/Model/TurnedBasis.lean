import Verif.Model.Reparam
/-!
# The basis of a turned patch

`gsPatchReparameterized` turns the geometry of a patch and its basis (a `gsContainerBasis` with nine pieces). The knots of the pieces are modelled.
-/
set_option autoImplicit false
namespace Verif.Reparam

/-- The knot vectors of a piece after a call: `m_basisRotated.basis(0).reverse()` in `gsPatchReparameterized.h:118-119`, `:209-211`, `:295-297`; the half turn (`:346-414`) leaves the basis as it is.
`gsContainerBasis::reverse` (`gsContainerBasis.h:105-132`) exchanges the two knot vectors of every piece; it does not reverse them. -/
def Op.knots : Op → List ℚ × List ℚ → List ℚ × List ℚ
  | .tw, k => k
  | .swap, k => (k.2, k.1)
  | .ac, k => (k.2, k.1)
  | .cw, k => (k.2, k.1)

/-- The knot vectors of a piece after a history of calls. -/
def runKnots (h : List Op) (k : List ℚ × List ℚ) : List ℚ × List ℚ := h.foldl (fun k o => o.knots k) k

end Verif.Reparam
