#!/bin/sh
# The long texts in the model are the files in /repo/assets, character by character. Run in /verif/lean after lake build.
dir=$(mktemp -d)
{ cat <<'L'
import Verif.Model.Examples
import Verif.Model.LibTests
open Verif
def main (args : List String) : IO Unit := do
  let dir := args.head!
  for (name, t) in [("old-syntax.txt", oldSyntaxText), ("old-self-syntax.txt", oldSelfText), ("self-syntax.txt", selfText),
      ("self-syntax-1.0.txt", selfText10), ("new-self-syntax.txt", newSelfText)] do
    IO.FS.writeFile (dir ++ "/" ++ name) (String.ofList t)
L
} > "$dir.lean"
mkdir -p "$dir/assets" && lake env lean --run "$dir.lean" "$dir/assets" && diff -r "$dir/assets" /repo/assets && echo same
