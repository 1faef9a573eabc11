/-
What the text of a map or set looks like.
-/
namespace Contrie

/-- The entries in braces, separated by a comma and a blank. -/
def bracesText (entries : List String) : String := "{" ++ ", ".intercalate entries ++ "}"

/-- The same as a sequence of pieces: the pieces of the entries, separated by `", "`, in braces. -/
def bracesPieces (entries : List (List String)) : List String := "{" :: [", "].intercalate entries ++ ["}"]

/-- One entry of a map: the text of the key, a colon and a blank, the text of the value. -/
def entryText (k v : List String) : String := String.join k ++ ": " ++ String.join v

end Contrie
