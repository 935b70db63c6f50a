import Verif.Autodiff.AutodiffModel

/-! Names of the operations that the public API offers on `Variable`s, and the smart constructor that
each one calls. -/

namespace Slp

/-- Unary operations of the public API (`variable.hpp:255-267,405-714`; the classes of `expression.hpp:444-2029`). -/
inductive UnOp where
  | pos | neg | abs | acos | asin | atan | cbrt | cos | cosh | erf | exp | log | log10 | sign | sin
  | sinh | sqrt | tan | tanh

/-- Binary operations of the public API (`variable.hpp:164-253,405-714`; the classes of `expression.hpp:444-2029`). -/
inductive BinOp where
  | add | sub | mul | div | atan2 | hypot | max | min | pow

variable {S : Type} [ScalarOps S]

/-- The smart constructor called by a unary operation (`variable.hpp:255-267`, `405-705`). -/
def UnOp.build : UnOp → ℕ → HM S ℕ
  | .pos => Slp.pos | .neg => Slp.neg | .abs => Slp.abs | .acos => Slp.acos | .asin => Slp.asin
  | .atan => Slp.atan | .cbrt => Slp.cbrt | .cos => Slp.cos | .cosh => Slp.cosh | .erf => Slp.erf
  | .exp => Slp.exp | .log => Slp.log | .log10 => Slp.log10 | .sign => Slp.sign | .sin => Slp.sin
  | .sinh => Slp.sinh | .sqrt => Slp.sqrt | .tan => Slp.tan | .tanh => Slp.tanh

/-- The smart constructor called by a binary operation (`variable.hpp:159-253`, `405-705`). -/
def BinOp.build : BinOp → ℕ → ℕ → HM S ℕ
  | .add => Slp.add | .sub => Slp.sub | .mul => Slp.mul | .div => Slp.div | .atan2 => Slp.atan2
  | .hypot => Slp.hypot | .max => Slp.max | .min => Slp.min | .pow => Slp.pow

end Slp
