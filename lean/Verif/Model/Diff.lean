import Verif.Model.ExprNorm

/-!
# Derivatives of expressions

Models the functions `Differentiate` of `symbolic/symbolic_expression_cell.cc`, which the local
optimiser (`dreal/optimization/nlopt_optimizer.cc:60`) and the users of the library call.
-/

namespace Verif.Model

mutual
/-- `GetVariables().include(x)` (`symbolic/symbolic_expression_cell.cc:248-254,282,526-533,785-793,
2006-2015,2090-2096`). -/
def Cell.occurs (x : Nat) : Cell → Bool
  | .const _ => false
  | .rconst .. => false
  | .var i => i == x
  | .add _ ts => ts.occurs x
  | .mul _ fs => fs.occurs x
  | .un _ a => a.occurs x
  | .bin _ a b => a.occurs x || b.occurs x
  | .ite c a b => c.occurs x || a.occurs x || b.occurs x
  | .nan => false
  | .uf _ vs => vs.contains x
/-- See `Cell.occurs`. -/
def CTerms.occurs (x : Nat) : CTerms → Bool
  | .nil => false
  | .cons e _ ts => e.occurs x || ts.occurs x
/-- See `Cell.occurs`. -/
def CFactors.occurs (x : Nat) : CFactors → Bool
  | .nil => false
  | .cons b e fs => b.occurs x || e.occurs x || fs.occurs x
/-- `GetFreeVariables().include(x)` (`symbolic/symbolic_formula_cell.cc:42,80-88,504,541`). -/
def FCell.occurs (x : Nat) : FCell → Bool
  | .ff => false
  | .tt => false
  | .var i => i == x
  | .rel _ a b => a.occurs x || b.occurs x
  | .conj fs => fs.occurs x
  | .disj fs => fs.occurs x
  | .neg f => f.occurs x
  | .all vs f => f.occurs x && !vs.contains x
/-- See `FCell.occurs`. -/
def FCells.occurs (x : Nat) : FCells → Bool
  | .nil => false
  | .cons f fs => f.occurs x || fs.occurs x
end

/-- `DifferentiatePow` (`symbolic/symbolic_expression_cell.cc:877-898`), given the derivatives of
the base and of the exponent.  Simplified: both are given in all cases; that of a constant is 0 and
is not used. -/
def powRule (A : Arith) (n : Nat) (f g df dg : Cell) : Run Cell :=
  match g with
  | .const q => do
    let m ← minusE A n (.const q) (.const 1)
    let p ← powE A n f m
    let r ← mulE A n (.const q) p
    mulE A n r df
  | g =>
    match f with
    | .const c => do
      let p ← powE A n (.const c) g
      let r ← mulE A n (.un .log (.const c)) p
      mulE A n r dg
    | f => do
      let m ← minusE A n g (.const 1)
      let p ← powE A n f m
      let s ← mulE A n g df
      let t ← mulE A n (.un .log f) f
      let u ← mulE A n t dg
      let w ← addE A n s u
      mulE A n p w

/-- `Differentiate` of division and `atan2` (`symbolic/symbolic_expression_cell.cc:1256-1261,
1773-1779`), given the derivatives of the arguments. -/
def divRule (A : Arith) (n : Nat) (f g df dg : Cell) : Run Cell := do
  let s ← mulE A n df g
  let t ← mulE A n f dg
  let u ← minusE A n s t
  let p ← powE A n g (.const 2)
  divE A n u p

/-- See `divRule`. -/
def atan2Rule (A : Arith) (n : Nat) (f g df dg : Cell) : Run Cell := do
  let s ← mulE A n g df
  let t ← mulE A n f dg
  let u ← minusE A n s t
  let p ← powE A n f (.const 2)
  let q ← powE A n g (.const 2)
  let w ← addE A n p q
  divE A n u w

/-- `Differentiate` of the unary functions but `abs` (`symbolic/symbolic_expression_cell.cc:
1311-1315,1390-1394,1436-1440,1525-1529,1561-1565,1597-1601,1643-1647,1692-1696,1732-1736,1815-1819,
1852-1856,1889-1893`), given the derivative of the argument. -/
def unRule (A : Arith) (n : Nat) (f : Fn1) (a da : Cell) : Run Cell :=
  match f with
  | .log => divE A n da a
  | .exp => mulE A n (.un .exp a) da
  | .sqrt => do
    let s ← mulE A n (.const 2) (sqrtE a)
    let q ← divE A n (.const 1) s
    mulE A n q da
  | .sin => mulE A n (.un .cos a) da
  | .cos => do
    let s ← negE A n (.un .sin a)
    mulE A n s da
  | .tan => do
    let p ← powE A n (.un .cos a) (.const 2)
    let q ← divE A n (.const 1) p
    mulE A n q da
  | .asin => do
    let p ← powE A n a (.const 2)
    let s ← minusE A n (.const 1) p
    let q ← divE A n (.const 1) (sqrtE s)
    mulE A n q da
  | .acos => do
    let p ← powE A n a (.const 2)
    let s ← minusE A n (.const 1) p
    let q ← divE A n (.const (-1)) (sqrtE s)
    mulE A n q da
  | .atan => do
    let p ← powE A n a (.const 2)
    let s ← addE A n (.const 1) p
    let q ← divE A n (.const 1) s
    mulE A n q da
  | .sinh => mulE A n (.un .cosh a) da
  | .cosh => mulE A n (.un .sinh a) da
  | .tanh => do
    let p ← powE A n (.un .cosh a) (.const 2)
    let q ← divE A n (.const 1) p
    mulE A n q da
  | .abs => .throw

mutual
/-- `Expression::Differentiate` (`symbolic/symbolic_expression.cc:292-295`,
`symbolic/symbolic_expression_cell.cc:375-380,416-418,465-467,508-510,614-625,900-918,1350-1358,1487-1489,
1929-1937,1976-1984,2073-2081,2152-2166`).  `n` bounds the depth of the arithmetic. -/
def diffC (A : Arith) (n x : Nat) : Cell → Run Cell
  | .const _ => .ok (.const 0)
  | .rconst .. => .ok (.const 0)
  | .var i => .ok (.const (if i = x then 1 else 0))
  | .add _ ts => diffT A n x (.const 0) ts
  | .mul c fs => do
    let e ← getMul A n (1, fs)
    let s ← diffG A n x e (.const 0) fs
    mulE A n (.const c) s
  | .un f a =>
    if f = .abs then if a.occurs x then .throw else .ok (.const 0)
    else do
      let da ← diffC A n x a
      unRule A n f a da
  | .bin f a b =>
    match f with
    | .div => do
      let da ← diffC A n x a
      let db ← diffC A n x b
      divRule A n a b da db
    | .pow => do
      let da ← diffC A n x a
      let db ← diffC A n x b
      powRule A n a b da db
    | .atan2 => do
      let da ← diffC A n x a
      let db ← diffC A n x b
      atan2Rule A n a b da db
    | .min => if a.occurs x || b.occurs x then .throw else .ok (.const 0)
    | .max => if a.occurs x || b.occurs x then .throw else .ok (.const 0)
  | .ite c a b => if c.occurs x || a.occurs x || b.occurs x then .throw else .ok (.const 0)
  | .nan => .throw
  | .uf _ vs => if vs.contains x then .throw else .ok (.const 0)
/-- The loop for sums (`symbolic/symbolic_expression_cell.cc:619-624`). -/
def diffT (A : Arith) (n x : Nat) (ret : Cell) : CTerms → Run Cell
  | .nil => .ok ret
  | .cons e q ts => do
    let d ← diffC A n x e
    let t ← mulE A n (.const q) d
    let ret' ← addE A n ret t
    diffT A n x ret' ts
/-- The loop for products (`symbolic/symbolic_expression_cell.cc:912-916`); `e` is the product. -/
def diffG (A : Arith) (n x : Nat) (e ret : Cell) : CFactors → Run Cell
  | .nil => .ok ret
  | .cons b g fs => do
    let db ← diffC A n x b
    let dg ← diffC A n x g
    let d ← powRule A n b g db dg
    let t ← mulE A n e d
    let m ← negE A n g
    let p ← powE A n b m
    let u ← mulE A n t p
    let ret' ← addE A n ret u
    diffG A n x e ret' fs
end

end Verif.Model
