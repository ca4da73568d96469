import Verif.State.Model

/-!
# `==` of the model of C58 is equality

The comparison in rule R014 of `OperatorTimesKet` (`_rules.py` lines 659-671) is `Expression.__eq__` (abstract_algebra.py lines 363-368): same
class and same arguments. -/

namespace QNET.State

variable {ι K : Type} [DecidableEq ι] [DecidableEq K]

mutual
theorem sc_beq : ∀ a b : Sc ι K, a.beq b = true ↔ a = b
  | .val k, b => by cases b <;> simp [Sc.beq]
  | .braket x y, b => by cases b <;> simp [Sc.beq, ket_beq x, ket_beq y]
  | .mul x y, b => by cases b <;> simp [Sc.beq, sc_beq x, sc_beq y]
  | .conj x, b => by cases b <;> simp [Sc.beq, sc_beq x]
theorem ket_beq : ∀ a b : Ket ι K, a.beq b = true ↔ a = b
  | .zero, b => by cases b <;> simp [Ket.beq]
  | .triv, b => by cases b <;> simp [Ket.beq]
  | .sym x s, b => by cases b <;> simp [Ket.beq]
  | .basis n l, b => by cases b <;> simp [Ket.beq]
  | .coh u l, b => by cases b <;> simp [Ket.beq, sc_beq u]
  | .scal u x, b => by cases b <;> simp [Ket.beq, sc_beq u, ket_beq x]
  | .plus l, b => by cases b <;> simp [Ket.beq, kets_beq l]
  | .tensor l, b => by cases b <;> simp [Ket.beq, kets_beq l]
  | .opKet A x, b => by cases b <;> simp [Ket.beq, op_beq A, ket_beq x]
theorem op_beq : ∀ a b : Op ι K, a.beq b = true ↔ a = b
  | .zero, b => by cases b <;> simp [Op.beq]
  | .one, b => by cases b <;> simp [Op.beq]
  | .sym x s, b => by cases b <;> simp [Op.beq]
  | .loc x s, b => by cases b <;> simp [Op.beq]
  | .sigma j k l, b => by cases b <;> simp [Op.beq, and_assoc]
  | .disp u l, b => by cases b <;> simp [Op.beq, sc_beq u]
  | .times l, b => by cases b <;> simp [Op.beq, ops_beq l]
  | .plus l, b => by cases b <;> simp [Op.beq, ops_beq l]
  | .scal u x, b => by cases b <;> simp [Op.beq, sc_beq u, op_beq x]
  | .adj x, b => by cases b <;> simp [Op.beq, op_beq x]
  | .ketBra x y, b => by cases b <;> simp [Op.beq, ket_beq x, ket_beq y]
theorem kets_beq : ∀ a b : List (Ket ι K), ketsBeq a b = true ↔ a = b
  | [], b => by cases b <;> simp [ketsBeq]
  | x :: l, b => by cases b <;> simp [ketsBeq, ket_beq x, kets_beq l]
theorem ops_beq : ∀ a b : List (Op ι K), opsBeq a b = true ↔ a = b
  | [], b => by cases b <;> simp [opsBeq]
  | x :: l, b => by cases b <;> simp [opsBeq, op_beq x, ops_beq l]
end

/-- C58: the comparison of kets is true exactly for equal expressions. -/
theorem C58_equality (a b : Ket ι K) : a.beq b = true ↔ a = b := ket_beq a b

end QNET.State
