import Verif.Model.Simd

/-!
# The four builds
-/

namespace Yasai

/-- The bitboard implementations selected by `cfg` in /repo/src/bitboard.rs:85-111: portable
(`core.rs`), `x86_64.rs`, `aarch64.rs`, `wasm32.rs`; `J` is what happens outside the contracts. -/
def builds (J : Junk) : List Backend := [CoreBB.build J, X86.build J, Aarch64.build J, Wasm32.build J]

/-- A set of backends. -/
def BackendSet := Backend → Prop

instance : Membership Backend BackendSet := ⟨fun B K => B K⟩

/-- The four builds, with any behaviour outside the contracts. -/
def backends : BackendSet := fun K => ∃ J, K ∈ builds J

theorem core_mem : CoreBB.backend ∈ backends := ⟨Junk.zero, List.mem_cons_self⟩

end Yasai
