import Mathlib.Data.List.Basic
/-!
# Removing repeated lines

utils/dedup_corpus.cc.  Lines are lists of bytes; the hash function is a parameter with 2^64 values.
-/
namespace Cdec.Dedup

/-- The loop of `main`, dedup_corpus.cc:15-19: the lines printed, given the hashes seen so far. -/
def loop (hash : List UInt8 → Fin (2 ^ 64)) : List (List UInt8) → List (Fin (2 ^ 64)) → List (List UInt8)
  | [], _ => []
  | l :: ls, seen => if hash l ∈ seen then loop hash ls seen else l :: loop hash ls (hash l :: seen)

/-- `main`, dedup_corpus.cc:8-20. -/
def main (hash : List UInt8 → Fin (2 ^ 64)) (file : List (List UInt8)) : List (List UInt8) := loop hash file []

end Cdec.Dedup
