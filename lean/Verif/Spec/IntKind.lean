/-!
# The eight fixed-width integer formats of the NEO wire protocol (specification data)
-/

namespace Spec

inductive IntKind where
  | i8 | u8 | i16 | u16 | i32 | u32 | i64 | u64
  deriving DecidableEq, Repr

/-- Width in bytes. -/
def IntKind.bytes : IntKind → Nat
  | .i8 | .u8 => 1
  | .i16 | .u16 => 2
  | .i32 | .u32 => 4
  | .i64 | .u64 => 8

/-- Smallest representable value. -/
def IntKind.min : IntKind → Int
  | .i8 => -128
  | .i16 => -32768
  | .i32 => -2147483648
  | .i64 => -9223372036854775808
  | _ => 0

/-- Largest representable value. -/
def IntKind.max : IntKind → Int
  | .i8 => 127
  | .u8 => 255
  | .i16 => 32767
  | .u16 => 65535
  | .i32 => 2147483647
  | .u32 => 4294967295
  | .i64 => 9223372036854775807
  | .u64 => 18446744073709551615

end Spec
