import Verif.Model.Text
/-! Model of the character classes in include/strswitch.h that the library itself does not use. A class is the list of the characters
    of its `case` labels. -/
namespace Ulz.Charclass

/-- include/strswitch.h:18. -/
def MATH_OPS : List Byte := bytes! "*/+-%="

/-- include/strswitch.h:21-23. -/
def NON_ALPHA_C : List Byte := MATH_OPS ++ bytes! " @,;.:_!" ++ bytes! "$&()[]{}" ++ bytes! "<>#~"

/-- include/strswitch.h:26-28. -/
def NON_ALPHA_SH : List Byte := MATH_OPS ++ bytes! " @,;.:_!" ++ bytes! "&()[]{}" ++ bytes! "<>#~"

/-- include/strswitch.h:30. -/
def NON_ALPHA : List Byte := NON_ALPHA_C ++ bytes! "?\"'\\"

/-- include/strswitch.h:16. -/
def ALPHA : List Byte := Text.LETTERS_UC ++ Text.LETTERS_LC ++ Text.NUMBERS

/-- include/strswitch.h:32. -/
def PRINTABLE : List Byte := ALPHA ++ NON_ALPHA
/-- include/strswitch.h:33. -/
def C_PRINTABLE : List Byte := ALPHA ++ NON_ALPHA_C
/-- include/strswitch.h:34. -/
def SH_PRINTABLE : List Byte := ALPHA ++ NON_ALPHA_SH

end Ulz.Charclass
