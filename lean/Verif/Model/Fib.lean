import Verif.Model.Py

/-! # `fib` (`ellpy/skeleton.py:43-56`) -/
namespace Verif

/-- `fib`, `skeleton.py:43-56`.  `a, b` are Python integers. -/
def pyFib (n : Int) : Except PyErr Int :=
  if ¬ 0 < n then .error .assertion else                                  -- 52
  match forRange (n - 1) (fun _ (s : Int × Int) => .ok (.cont (s.2, s.1 + s.2))) (1, 1) with  -- 53-55
  | .error e => .error e
  | .ok (s, _) => .ok s.1                                                 -- 56

end Verif
