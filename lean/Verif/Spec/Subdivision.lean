import Verif.Spec.SGraph
/-! # Specification of edge subdivision -/
namespace Verif

/-- Position `j` on a path from `u` to `v` with the `n` inner vertices `s, s+1, ..., s+n-1`. -/
def pathPos (u v s n j : ℕ) : ℕ := if j = 0 then u else if j ≤ n then s + (j - 1) else v

/-- Vertex number `j` of the path that replaces edge number `i`, if the `t` fresh inner vertices of edge `i`
are `b + i*t, ..., b + i*t + t - 1`. -/
def subdivVertex (es : List (ℕ × ℕ)) (b t i j : ℕ) : ℕ :=
  match es[i]? with
  | none => 0
  | some e => pathPos e.1 e.2 (b + i * t) t j

end Verif
