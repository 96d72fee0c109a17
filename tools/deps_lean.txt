import Verif
/-! Prints, for every property theorem, the declarations of the project its proof rests on.
Used by tools/mutate.py; not part of the build. -/
open Lean

partial def collect (env : Environment) (n : Name) (seen : NameSet) : NameSet :=
  if seen.contains n || !(n.getRoot == `Permaviss || n.toString.startsWith "_private.Verif") then seen
  else match env.find? n with
    | none => seen
    | some c =>
      let seen := seen.insert n
      let used := c.type.getUsedConstants ++ (match c.value? (allowOpaque := true) with | some v => v.getUsedConstants | none => #[])
      used.foldl (fun s m => collect env m s) seen

run_cmd do
  let env ← getEnv
  let names := env.constants.map₁.fold (fun acc n c =>
    match n, c with
    | .str (.str .anonymous "Permaviss") s, .thmInfo _ =>
      if s.length > 5 && s.toList.head! == 'C' && ((s.toList.drop 1).take 2).all Char.isDigit && ((s.toList.drop 3).dropWhile Char.isDigit).head! == '_' then acc.push n else acc
    | _, _ => acc) #[]
  for n in names do
    let l := (collect env n {}).toList.filterMap fun m => match m with
      | .str (.str .anonymous "Permaviss") s => some s
      | .str (.str (.str .anonymous "Permaviss") a) s => some (a ++ "." ++ s)
      | _ => none
    IO.println s!"{n.getString!} {" ".intercalate l}"
