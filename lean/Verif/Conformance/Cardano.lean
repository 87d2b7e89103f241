import Verif.Cardano.Blake2b
import Verif.Cardano.Bech32

/-!
# The tests of token fingerprints, run on the model

The test vectors of CIP-14 in `/repo/cardano-utils/src/cip14.rs`, with Blake2b and Bech32 as they are written out in the
model. They are tests of the model, not theorems about it.
-/

namespace Verif.Conformance.Cardano

open Verif.Cardano

/-- `fingerprint_bech32`, cip14.rs:32-36. -/
def fingerprintBech32 (policy name : String) : Option String :=
  ((fingerprintHash (Blake2b.hash 20) policy.toList name.toList).bind
    (fun b => Bech32.encode "asset".toList (Bech32.toBase32 b))).map String.ofList

/-- `TESTS`, cip14.rs:44-107: policy, name and fingerprint. -/
def vectors : List (String × String × String) :=
  [("7eae28af2208be856f7a119668ae52a49b73725e326dc16579dcc373", "",
      "asset1rjklcrnsdzqp65wjgrg55sy9723kw09mlgvlc3"),
    ("7eae28af2208be856f7a119668ae52a49b73725e326dc16579dcc37e", "",
      "asset1nl0puwxmhas8fawxp8nx4e2q3wekg969n2auw3"),
    ("1e349c9bdea19fd6c147626a5260bc44b71635f398b67c59881df209", "",
      "asset1uyuxku60yqe57nusqzjx38aan3f2wq6s93f6ea"),
    ("7eae28af2208be856f7a119668ae52a49b73725e326dc16579dcc373", "504154415445",
      "asset13n25uv0yaf5kus35fm2k86cqy60z58d9xmde92"),
    ("1e349c9bdea19fd6c147626a5260bc44b71635f398b67c59881df209", "504154415445",
      "asset1hv4p5tv2a837mzqrst04d0dcptdjmluqvdx9k3"),
    ("1e349c9bdea19fd6c147626a5260bc44b71635f398b67c59881df209", "7eae28af2208be856f7a119668ae52a49b73725e326dc16579dcc373",
      "asset1aqrdypg669jgazruv5ah07nuyqe0wxjhe2el6f"),
    ("7eae28af2208be856f7a119668ae52a49b73725e326dc16579dcc373", "1e349c9bdea19fd6c147626a5260bc44b71635f398b67c59881df209",
      "asset17jd78wukhtrnmjh3fngzasxm8rck0l2r4hhyyt"),
    ("7eae28af2208be856f7a119668ae52a49b73725e326dc16579dcc373", "0000000000000000000000000000000000000000000000000000000000000000",
      "asset1pkpwyknlvul7az0xx8czhl60pyel45rpje4z8w")]

/-- `test_vectors`, cip14.rs:109-119. -/
example : ∀ v ∈ vectors, fingerprintBech32 v.1 v.2.1 = some v.2.2 := by decide +kernel

/-- The example of RFC 7693, appendix A: `abc`, with 64 bytes of output. -/
example : hexEncode (Blake2b.hash 64 [97, 98, 99]) =
    ("ba80a53f981c4d0d6a2797b69f12f6e94c212f14685ac4b74b12bb6fdbffa2d1" ++
      "7d87c5392aab792dc252d5de4533cc9518d38aa8dbf1925ab92386edd4009923").toList := by decide +kernel

/-- Three blocks of input, with 28 bytes of output (computed with another implementation). -/
example : hexEncode (Blake2b.hash 28 ((List.range 300).map UInt8.ofNat)) =
    "8dd007602c50ef991b7c6eb270f7ab3ea6b4842542cc01cfba5ed48c".toList := by decide +kernel

/-- Two full blocks of input, with 32 bytes of output (computed with another implementation). -/
example : hexEncode (Blake2b.hash 32 (List.replicate 256 7)) =
    "b49f21d17acf05b322ebbc2983fdfcc3fe1f77d80c122dca03806a8163f0416a".toList := by decide +kernel

end Verif.Conformance.Cardano
