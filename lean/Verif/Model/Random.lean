import Verif.Go.Bytes
/-!
# `/repo/ripsrc/pkg/random/random.go`
-/
namespace Ripsrc

/-- `String(count, chars)` (`/repo/ripsrc/pkg/random/random.go:16-23`). `rnd` are the `count` bytes of `Bytes` (`/repo/ripsrc/pkg/random/random.go:7-14`), which come from the operating
system; its panic after an error of `rand.Read` is not modelled. `byte(len(chars))` drops the high bits; `b % lenc` and `chars[...]` may panic. -/
def randomString (chars : Str) : Str → Go Str
  | [] => .ok []
  | b :: bs =>
    let lenc := UInt8.ofNat chars.length
    if lenc = 0 then .error (.panic "integer divide by zero")
    else match chars[(b % lenc).toNat]? with
      | none => .error (.panic "index out of range")
      | some c => do
        let cs ← randomString chars bs
        .ok (c :: cs)

/-- `LatinAndNumbers` (`/repo/ripsrc/pkg/random/random.go:5`). -/
def latinAndNumbers : Str := b!"ABCDEFGHIJKLMNOPQRSTUVWXYZabcdefghijklmnopqrstuvwxyz0123456789"

end Ripsrc
